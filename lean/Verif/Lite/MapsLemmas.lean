import Verif.Lite.MapsSpec
import Verif.Lite.LieElems
import Verif.Tensor.Dynkin

set_option linter.unusedSectionVars false

/-! # Expansions of Lie keys and bracketings of words -/

namespace RoughPy.Lite

open RoughPy.Tensor RoughPy.Tensor.Series
open RoughPy.Lie (IsHallTable HasDegree hallTable hallTable_isHall Homog)

attribute [local instance] LieRing.ofAssociativeRing

variable {K : Type} [CommRing K] {w : ℕ}

theorem word_mul (u v : List (Fin w)) :
    (word K u * word K v : Series (Fin w) K) = word K (u ++ v) := by
  funext z
  rw [mul_apply]
  unfold word
  by_cases hz : z = u ++ v
  · subst hz
    rw [if_pos rfl, Finset.sum_eq_single u.length]
    · simp
    · intro k hk hne
      rw [if_neg, zero_mul]
      intro h
      have := congrArg List.length h
      rw [Finset.mem_range] at hk
      rw [List.length_take] at this
      omega
    · intro h; exact absurd (Finset.mem_range.2 (by simp)) h
  · rw [if_neg hz]
    refine Finset.sum_eq_zero fun k _ => ?_
    split_ifs with h1 h2
    · exact absurd (by rw [← h1, ← h2, List.take_append_drop]) hz
    · rw [mul_zero]
    · rw [zero_mul]
    · rw [zero_mul]

/-- a key of the tensor basis as a tensor -/
def tser (K : Type) [CommRing K] (w : ℕ) (k : Key) : Series (Fin w) K :=
  fun u => if wordKey u = k then 1 else 0

theorem tser_wordKey (u : List (Fin w)) : tser K w (wordKey u) = word K u := by
  funext v
  unfold tser word
  exact if_congr ⟨fun h => wordKey_inj h, fun h => h ▸ rfl⟩ rfl rfl

/-- `p` is a combination of words of `n` letters -/
def WordKeys (w n : ℕ) (p : Product) : Prop :=
  ∀ t ∈ p, ∃ u : List (Fin w), u.length = n ∧ wordKey u = t.1

theorem genericCommutator_spec {depth a b : ℕ} (hab : a + b ≤ depth) {x y : Product}
    (hx : WordKeys w a x) (hy : WordKeys w b y) :
    ∃ p, genericCommutator w depth x y = some p ∧ WordKeys w (a + b) p ∧
      Product.value (tser K w) p =
        ⁅Product.value (tser K w) x, Product.value (tser K w) y⁆ := by
  have step : ∀ l ∈ x, ∀ s : Product, (SMap.Sorted s ∧ WordKeys w (a + b) s) → ∃ s',
      (loop y s fun m r => do
        let p ← concatProduct w depth l.1 r.1
        let m := p.foldl (fun m inner => Product.accumulate m inner.1 (inner.2 * l.2 * r.2)) m
        let q ← concatProduct w depth r.1 l.1
        some (q.foldl (fun m inner => Product.accumulate m inner.1 (-(inner.2 * r.2 * l.2))) m)) =
          some s' ∧
      (SMap.Sorted s' ∧ WordKeys w (a + b) s') ∧ Product.value (tser K w) s' =
        Product.value (tser K w) s + l.2 • ⁅tser K w l.1, Product.value (tser K w) y⁆ := by
    intro l hl s hs
    obtain ⟨u, hu, hul⟩ := hx l hl
    obtain ⟨s', h1, h2, h3⟩ := loop_add (fun s : Product => SMap.Sorted s ∧ WordKeys w (a + b) s)
      (Product.value (tser K w)) y (fun m r => do
        let p ← concatProduct w depth l.1 r.1
        let m := p.foldl (fun m inner => Product.accumulate m inner.1 (inner.2 * l.2 * r.2)) m
        let q ← concatProduct w depth r.1 l.1
        some (q.foldl (fun m inner => Product.accumulate m inner.1 (-(inner.2 * r.2 * l.2))) m))
      (fun r => (l.2 * r.2) • ⁅tser K w l.1, tser K w r.1⁆)
      (fun r hr s hs => by
        obtain ⟨v, hv, hvr⟩ := hy r hr
        have e1 : concatProduct w depth l.1 r.1 = some [(wordKey (u ++ v), 1)] := by
          rw [← hul, ← hvr]; exact Sparse.concat_wordKey (by omega)
        have e2 : concatProduct w depth r.1 l.1 = some [(wordKey (v ++ u), 1)] := by
          rw [← hul, ← hvr]; exact Sparse.concat_wordKey (by omega)
        refine ⟨_, by
          rw [e1, e2]
          rfl, ?_, ?_⟩
        · refine ⟨Product.accumulate_sorted (Product.accumulate_sorted hs.1 _ _) _ _, ?_⟩
          exact Product.keys_accumulate (P := fun k => ∃ u : List (Fin w), u.length = a + b ∧ wordKey u = k)
            (Product.keys_accumulate (P := fun k => ∃ u : List (Fin w), u.length = a + b ∧ wordKey u = k)
              hs.2 ⟨_, by rw [List.length_append, hu, hv], rfl⟩ _)
            ⟨_, by rw [List.length_append, hu, hv, Nat.add_comm], rfl⟩ _
        · simp only [List.foldl_cons, List.foldl_nil]
          rw [Product.value_accumulate _ (Product.accumulate_sorted hs.1 _ _),
            Product.value_accumulate _ hs.1, tser_wordKey, tser_wordKey, ← hul, ← hvr,
            tser_wordKey, tser_wordKey, LieRing.of_associative_ring_bracket, word_mul, word_mul,
            one_mul, one_mul, neg_smul, smul_sub, mul_comm r.2 l.2, add_assoc, sub_eq_add_neg]) s hs
    refine ⟨s', h1, h2, ?_⟩
    rw [h3]
    congr 1
    clear h1 h2 h3 hy
    unfold Product.value
    induction y with
    | nil => simp
    | cons t y ih =>
      rw [List.map_cons, List.sum_cons, ih, List.map_cons, List.sum_cons, lie_add, smul_add,
        lie_smul, mul_smul]
  obtain ⟨p, h1, h2, h3⟩ := loop_add (fun s : Product => SMap.Sorted s ∧ WordKeys w (a + b) s)
    (Product.value (tser K w)) x _
    (fun l => l.2 • ⁅tser K w l.1, Product.value (tser K w) y⁆) step [] ⟨SMap.sorted_nil, by
      intro t ht; cases ht⟩
  refine ⟨p, h1, h2.2, ?_⟩
  rw [h3, Product.value_nil, zero_add, Product.value_lie]

/-! ## Expansions -/

/-- `p` is the expansion of the key `k` -/
structure Expands (e : Key → Series (Fin w) K) (k : Key) (p : Product) : Prop where
  keys : WordKeys w k.deg p
  value : Product.value (tser K w) p = e k

/-- the expansions remembered are right -/
def MemoOK (e : Key → Series (Fin w) K) (depth : ℕ) (memo : Memo) : Prop :=
  ∀ k p, HallKey w k → k.deg ≤ depth → memo k = some p → Expands e k p

theorem MemoOK.update {e : Key → Series (Fin w) K} {depth : ℕ} {memo : Memo} (h : MemoOK e depth memo)
    {k : Key} {p : Product} (hp : HallKey w k → k.deg ≤ depth → Expands e k p) :
    MemoOK e depth (Function.update memo k (some p)) := by
  intro k' p' hk hd hm
  by_cases hkk : k' = k
  · subst hkk
    rw [Function.update_self, Option.some.injEq] at hm
    subst hm
    exact hp hk hd
  · rw [Function.update_of_ne hkk] at hm
    exact h k' p' hk hd hm

theorem hallKey_letter {k : Key} (hk : HallKey w k) (h1 : k.deg = 1) : k.idx < w := by
  obtain ⟨m, i, h0, hi, rfl⟩ := hk
  have hb := hallTable_isHall w m
  have h1' : (hallTable w m).deg i = 1 := h1
  have hd : HasDegree (hallTable w m) i 1 := h1' ▸ hb.hasDegree_deg hi
  have hl : 1 ≤ i ∧ i ≤ w := hb.letter_iff.1 hd
  rw [keyAt_letter hb hl.1 hl.2]
  dsimp only
  omega

variable {m : ℕ} {hs : HallSet} {e : Key → Series (Fin w) K}

theorem letter_expands (he : HallElems hs e) {k : Key} (hk : HallKey w k) (h1 : k.deg = 1) :
    Expands e k [(⟨1, k.idx⟩, 1)] := by
  have hi := hallKey_letter hk h1
  have hw : wordKey [(⟨k.idx, hi⟩ : Fin w)] = ⟨1, k.idx⟩ := by
    simp [wordKey, wordOffset]
  constructor
  · intro t ht
    rw [List.mem_singleton] at ht
    subst ht
    exact ⟨[⟨k.idx, hi⟩], by rw [h1]; rfl, hw⟩
  · rw [Product.value_cons, Product.value_nil, one_smul, add_zero, ← hw, tser_wordKey]
    have : e ⟨1, (⟨k.idx, hi⟩ : Fin w)⟩ = letter K ⟨k.idx, hi⟩ := he.letter ⟨k.idx, hi⟩
    have hk' : e k = e ⟨1, k.idx⟩ := by rw [← h1]
    rw [hk', this]
    rfl

theorem expand_ok (hr : Rep (hallTable w m) hs) (he : HallElems hs e) (fuel : ℕ) :
    ∀ (memo : Memo) (k : Key) (p : Product) (memo' : Memo),
      expand w (m + 1) hs fuel memo k = some (p, memo') → MemoOK e (m + 1) memo →
      MemoOK e (m + 1) memo' ∧ (HallKey w k → k.deg ≤ m + 1 → Expands e k p) := by
  have hh : HallRep w (m + 1) hs := ⟨m, hr, le_rfl⟩
  induction fuel with
  | zero => intro memo k p memo' h; cases h
  | succ fuel ih =>
    intro memo k p memo' h hm
    rw [expand] at h
    dsimp only at h
    cases hc : memo k with
    | some q =>
      rw [hc] at h
      dsimp only at h
      rw [Option.some.injEq, Prod.mk.injEq] at h
      obtain ⟨rfl, rfl⟩ := h
      exact ⟨hm, fun hk hd => hm k q hk hd hc⟩
    | none =>
    rw [hc] at h
    dsimp only at h
    by_cases h1 : k.deg = 1
    · rw [if_pos h1, Option.some.injEq, Prod.mk.injEq] at h
      obtain ⟨rfl, rfl⟩ := h
      rw [Nat.add_sub_cancel]
      exact ⟨hm.update fun hk _ => letter_expands he hk h1, fun hk _ => letter_expands he hk h1⟩
    rw [if_neg h1] at h
    cases hpar : hs.parents k with
    | none => rw [hpar] at h; cases h
    | some pr =>
    rw [hpar] at h
    simp only [Option.bind_eq_bind, Option.bind_some] at h
    cases hl : expand w (m + 1) hs fuel memo pr.1 with
    | none => rw [hl] at h; cases h
    | some l =>
    rw [hl] at h
    simp only [Option.bind_some] at h
    cases hrr : expand w (m + 1) hs fuel l.2 pr.2 with
    | none => rw [hrr] at h; cases h
    | some r =>
    rw [hrr] at h
    simp only [Option.bind_some] at h
    cases hg : genericCommutator w (m + 1) l.1 r.1 with
    | none => rw [hg] at h; cases h
    | some g =>
    rw [hg] at h
    simp only [Option.bind_some, Option.some.injEq, Prod.mk.injEq] at h
    obtain ⟨rfl, rfl⟩ := h
    obtain ⟨a1, a2⟩ := ih memo pr.1 l.1 l.2 hl hm
    obtain ⟨b1, b2⟩ := ih l.2 pr.2 r.1 r.2 hrr a1
    have key : HallKey w k → k.deg ≤ m + 1 → Expands e k g := by
      intro hk hd
      obtain ⟨p, q, e1, e2⟩ := hh.parents_some hk hd
      rw [hpar, Option.some.injEq] at e1
      subst e1
      have hk0 := hk.deg_pos
      obtain ⟨hp, hq, hdeg, -⟩ := e2.parents (by omega)
      have hp0 := hp.deg_pos
      have hq0 := hq.deg_pos
      have hx := a2 hp (by dsimp only; omega)
      have hy := b2 hq (by dsimp only; omega)
      dsimp only at hx hy
      obtain ⟨g', g1, g2, g3⟩ := genericCommutator_spec (K := K) (depth := m + 1) (by omega) hx.keys hy.keys
      rw [hg, Option.some.injEq] at g1
      subst g1
      refine ⟨by rw [← hdeg]; exact g2, ?_⟩
      rw [g3, hx.value, hy.value, he.bracketUpTo hr k p q e2 (by omega) hd]
    exact ⟨b1.update key, key⟩

theorem expand_total (hr : Rep (hallTable w m) hs) (he : HallElems hs e) (fuel : ℕ) :
    ∀ (memo : Memo) (k : Key), HallKey w k → k.deg ≤ m + 1 → k.deg ≤ fuel → MemoOK e (m + 1) memo →
      ∃ out, expand w (m + 1) hs fuel memo k = some out := by
  have hh : HallRep w (m + 1) hs := ⟨m, hr, le_rfl⟩
  induction fuel with
  | zero => intro memo k hk _ hf; have := hk.deg_pos; omega
  | succ fuel ih =>
    intro memo k hk hd hf hm
    rw [expand]
    dsimp only
    cases hc : memo k with
    | some q => exact ⟨_, rfl⟩
    | none =>
    dsimp only
    by_cases h1 : k.deg = 1
    · rw [if_pos h1]; exact ⟨_, rfl⟩
    rw [if_neg h1]
    obtain ⟨p, q, e1, e2⟩ := hh.parents_some hk hd
    have hk0 := hk.deg_pos
    obtain ⟨hp, hq, hdeg, -⟩ := e2.parents (by omega)
    have hp0 := hp.deg_pos
    have hq0 := hq.deg_pos
    obtain ⟨l, hl⟩ := ih memo p hp (by omega) (by omega) hm
    obtain ⟨a1, a2⟩ := expand_ok hr he fuel memo p l.1 l.2 hl hm
    obtain ⟨r, hrr⟩ := ih l.2 q hq (by omega) (by omega) a1
    obtain ⟨b1, b2⟩ := expand_ok hr he fuel l.2 q r.1 r.2 hrr a1
    obtain ⟨g, g1, -⟩ := genericCommutator_spec (K := K) (depth := m + 1) (by omega)
      (a2 hp (by omega)).keys (b2 hq (by omega)).keys
    rw [e1]
    simp only [Option.bind_eq_bind, Option.bind_some]
    rw [hl]
    simp only [Option.bind_some]
    rw [hrr]
    simp only [Option.bind_some]
    rw [g1]
    exact ⟨_, rfl⟩

/-! ## Products of combinations of Lie keys -/

/-- a loop that adds to the value of its state, if it returns -/
theorem loop_add_of_some {ι S M : Type} [AddCommMonoid M] (inv : S → Prop) (val : S → M) (l : List ι)
    (body : S → ι → Option S) (F : ι → M)
    (h : ∀ x ∈ l, ∀ s s', body s x = some s' → inv s → inv s' ∧ val s' = val s + F x) :
    ∀ s s', loop l s body = some s' → inv s → inv s' ∧ val s' = val s + (l.map F).sum := by
  induction l with
  | nil =>
    intro s s' hs hi
    obtain rfl := Option.some.inj hs
    exact ⟨hi, by simp⟩
  | cons a l ih =>
    intro s s' hs hi
    rw [loop_cons] at hs
    cases hb : body s a with
    | none => rw [hb] at hs; cases hs
    | some s1 =>
      rw [hb] at hs
      obtain ⟨h1, h2⟩ := h a List.mem_cons_self s s1 hb hi
      obtain ⟨h3, h4⟩ := ih (fun x hx => h x (List.mem_cons_of_mem _ hx)) s1 s' hs h1
      exact ⟨h3, by rw [h4, h2, List.map_cons, List.sum_cons, add_assoc]⟩

theorem loop_inv {ι S : Type} (inv : S → Prop) (l : List ι) (body : S → ι → Option S)
    (h : ∀ x ∈ l, ∀ s s', body s x = some s' → inv s → inv s') :
    ∀ s s', loop l s body = some s' → inv s → inv s' := by
  intro s s' hs hi
  exact (loop_add_of_some inv (fun _ => (0 : ℕ)) l body (fun _ => 0)
    (fun x hx s s' hb hi => ⟨h x hx s s' hb hi, rfl⟩) s s' hs hi).1

theorem loop_total {ι S : Type} (inv : S → Prop) (l : List ι) (body : S → ι → Option S)
    (h : ∀ x ∈ l, ∀ s, inv s → ∃ s', body s x = some s' ∧ inv s') :
    ∀ s, inv s → ∃ s', loop l s body = some s' ∧ inv s' := by
  intro s hs
  obtain ⟨s', h1, h2, -⟩ := loop_add inv (fun _ => (0 : ℕ)) l body (fun _ => 0)
    (fun x hx s hi => by
      obtain ⟨s', h1, h2⟩ := h x hx s hi
      exact ⟨s', h1, h2, rfl⟩) s hs
  exact ⟨s', h1, h2⟩

/-- combinations of Hall keys of degree `n` -/
def HallKeys (w n : ℕ) (p : Product) : Prop := ∀ t ∈ p, HallKey w t.1 ∧ t.1.deg = n

theorem mulProducts_history {depth : ℕ} (hnew : HallSet.new w depth = some hs) {fuel : ℕ}
    {c c' : LieCache} {x y p : Product}
    (h : mulProducts (lieProd hs depth fuel) c x y = some (p, c')) (hc : LieHistory w c) :
    LieHistory w c' := by
  refine loop_inv (fun s : Product × LieCache => LieHistory w s.2) x _ ?_ _ _ h hc
  intro l _ s s' h' hi
  refine loop_inv (fun s : Product × LieCache => LieHistory w s.2) y _ ?_ _ _ h' hi
  intro r _ s s' h' hi
  cases ho : lieProd hs depth fuel s.2 l.1 r.1 with
  | none => rw [ho] at h'; cases h'
  | some o =>
    rw [ho] at h'
    simp only [Option.bind_eq_bind, Option.bind_some, Option.some.injEq] at h'
    subst h'
    exact LieHistory.lookup hnew hi ho

/-- the body of the loops of `mulProducts`, for a multiplication that is right -/
theorem mulProducts_step {a b : ℕ} {s : Product × LieCache} {o : Product × LieCache} {l r : Key × ℤ}
    (hs : SMap.Sorted s.1 ∧ HallKeys w (a + b) s.1) (ho1 : HallKeys w (a + b) o.1)
    (ho2 : Product.value e o.1 = ⁅e l.1, e r.1⁆) :
    (SMap.Sorted (o.1.foldl (fun m inner => Product.accumulate m inner.1 (inner.2 * l.2 * r.2)) s.1) ∧
    HallKeys w (a + b)
      (o.1.foldl (fun m inner => Product.accumulate m inner.1 (inner.2 * l.2 * r.2)) s.1)) ∧
    Product.value e (o.1.foldl (fun m inner => Product.accumulate m inner.1 (inner.2 * l.2 * r.2)) s.1) =
      Product.value e s.1 + (l.2 * r.2) • ⁅e l.1, e r.1⁆ := by
  obtain ⟨f1, f2, f3⟩ := Product.foldl_accumulate e (P := fun k => HallKey w k ∧ k.deg = a + b) o.1
    (fun inner => inner.2 * l.2 * r.2) s.1 hs.1
  refine ⟨⟨f1, f3 hs.2 ho1⟩, ?_⟩
  rw [f2, ← ho2, ← Product.sum_smul_value]
  congr 2
  refine List.map_congr_left fun t _ => ?_
  rw [mul_assoc, mul_comm]

theorem sum_lie_row (l : Key × ℤ) (y : Product) :
    (y.map fun r => (l.2 * r.2) • ⁅e l.1, e r.1⁆).sum = l.2 • ⁅e l.1, Product.value e y⁆ := by
  unfold Product.value
  induction y with
  | nil => simp
  | cons t y ih =>
    rw [List.map_cons, List.sum_cons, ih, List.map_cons, List.sum_cons, lie_add, smul_add,
      lie_smul, mul_smul]

theorem mulProducts_ok (hnew : HallSet.new w (m + 1) = some hs) (hr : Rep (hallTable w m) hs)
    (he : HallElems hs e) {fuel : ℕ} {c c' : LieCache} {x y p : Product} {a b : ℕ}
    (h : mulProducts (lieProd hs (m + 1) fuel) c x y = some (p, c')) (hc : LieHistory w c)
    (hab : a + b ≤ m + 1) (hx : HallKeys w a x) (hy : HallKeys w b y) :
    HallKeys w (a + b) p ∧ Product.value e p = ⁅Product.value e x, Product.value e y⁆ := by
  have hB := he.bracketUpTo hr
  have hop := lieProd_ok (hallRep_new hnew) hB fuel
  let inv : Product × LieCache → Prop := fun s =>
    LieHistory w s.2 ∧ SMap.Sorted s.1 ∧ HallKeys w (a + b) s.1
  have := loop_add_of_some inv (fun s => Product.value e s.1) x _
    (fun l => l.2 • ⁅e l.1, Product.value e y⁆) (fun l hl s s' h' hi => by
      have := loop_add_of_some inv (fun s => Product.value e s.1) y _
        (fun r => (l.2 * r.2) • ⁅e l.1, e r.1⁆) (fun r hr' s s' h' hi => by
          cases ho : lieProd hs (m + 1) fuel s.2 l.1 r.1 with
          | none => rw [ho] at h'; cases h'
          | some o =>
          rw [ho] at h'
          simp only [Option.bind_eq_bind, Option.bind_some, Option.some.injEq] at h'
          subst h'
          obtain ⟨hl1, hl2⟩ := hx l hl
          obtain ⟨hr1, hr2⟩ := hy r hr'
          have ok := (hop _ _ _ _ _ ho (cacheOK_of_history hB hi.1)).2 hl1 hr1 (by omega)
            (Or.inl (by omega))
          have ho1 : HallKeys w (a + b) o.1 := fun t ht => by
            have := ok.keys t ht
            rw [hl2, hr2] at this
            exact this
          obtain ⟨g1, g2⟩ := mulProducts_step hi.2 ho1 ok.value
          exact ⟨⟨LieHistory.lookup hnew hi.1 ho, g1⟩, g2⟩) s s' h' hi
      rw [sum_lie_row] at this
      exact this) _ _ h ⟨hc, SMap.sorted_nil, fun t ht => by cases ht⟩
  refine ⟨this.1.2.2, ?_⟩
  rw [this.2, Product.value_nil, zero_add, Product.value_lie]

theorem mulProducts_total (hnew : HallSet.new w (m + 1) = some hs) (hr : Rep (hallTable w m) hs)
    (he : HallElems hs e) {fuel : ℕ}
    (htot : ∀ c l r, LieHistory w c → HallKey w l → HallKey w r → l.deg + r.deg ≤ m + 1 →
      ∃ out, lieProd hs (m + 1) fuel c l r = some out) {c : LieCache} {x y : Product} {a b : ℕ}
    (hc : LieHistory w c) (hab : a + b ≤ m + 1) (hx : HallKeys w a x) (hy : HallKeys w b y) :
    ∃ out, mulProducts (lieProd hs (m + 1) fuel) c x y = some out := by
  refine (loop_total (fun s : Product × LieCache => LieHistory w s.2) x _ ?_ _ hc).imp fun _ h => h.1
  intro l hl s hi
  refine loop_total (fun s : Product × LieCache => LieHistory w s.2) y _ ?_ _ hi
  intro r hr' s hi
  obtain ⟨hl1, hl2⟩ := hx l hl
  obtain ⟨hr1, hr2⟩ := hy r hr'
  obtain ⟨o, ho⟩ := htot s.2 l.1 r.1 hi hl1 hr1 (by omega)
  rw [ho]
  exact ⟨_, rfl, LieHistory.lookup hnew hi ho⟩

/-! ## Bracketings -/

/-- `p` is the right bracketing of the word `u` -/
structure Brackets (e : Key → Series (Fin w) K) (u : List (Fin w)) (p : Product) : Prop where
  keys : HallKeys w u.length p
  value : Product.value e p = rb K u

/-- the bracketings remembered are right -/
def BracketsOK (e : Key → Series (Fin w) K) (depth : ℕ) (memo : Memo) : Prop :=
  ∀ (u : List (Fin w)) p, u ≠ [] → u.length ≤ depth → memo (wordKey u) = some p → Brackets e u p

theorem BracketsOK.update {depth : ℕ} {memo : Memo} (h : BracketsOK e depth memo) {k : Key}
    {p : Product} (hp : ∀ u : List (Fin w), wordKey u = k → u ≠ [] → u.length ≤ depth → Brackets e u p) :
    BracketsOK e depth (Function.update memo k (some p)) := by
  intro u p' hu hd hm
  by_cases hkk : wordKey u = k
  · rw [hkk, Function.update_self, Option.some.injEq] at hm
    subst hm
    exact hp u hkk hu hd
  · rw [Function.update_of_ne hkk] at hm
    exact h u p' hu hd hm

theorem hallKey_of_lt {i : ℕ} (hi : i < w) : HallKey w ⟨1, i⟩ := by
  have hb := hallTable_isHall w 0
  have hl := keyAt_letter hb (k := i + 1) (by omega) (show i + 1 ≤ w from hi)
  rw [Nat.add_sub_cancel] at hl
  rw [← hl]
  exact hallKey_of_index (by omega) ((hb.letter_iff.2 ⟨by omega, show i + 1 ≤ w from hi⟩).lt hb)

theorem letter_brackets (he : HallElems hs e) {k : Key} {u : List (Fin w)} (hu : wordKey u = k)
    (h1 : k.deg = 1) : Brackets e u [(⟨1, k.idx⟩, 1)] := by
  have hl : u.length = 1 := by rw [← h1, ← hu]; rfl
  obtain ⟨a, rfl⟩ := List.length_eq_one_iff.1 hl
  have hk : k.idx = a.val := by
    rw [← hu]
    simp [wordKey, wordOffset]
  rw [hk]
  constructor
  · intro t ht
    rw [List.mem_singleton] at ht
    subst ht
    exact ⟨hallKey_of_lt a.isLt, rfl⟩
  · rw [Product.value_cons, Product.value_nil, one_smul, add_zero]
    exact he.letter a

theorem wordKey_cons (a : Fin w) (u : List (Fin w)) :
    (⟨1, (wordKey (a :: u)).idx / w ^ u.length⟩ : Key) = wordKey [a] ∧
    (⟨(wordKey (a :: u)).deg - 1, (wordKey (a :: u)).idx % w ^ u.length⟩ : Key) = wordKey u := by
  have hlt := wordOffset_lt u
  have hpos : 0 < w ^ u.length := by omega
  have h1 : (wordKey (a :: u)).idx = w ^ u.length * a.val + wordOffset u := by
    show a.val * w ^ u.length + wordOffset u = _
    rw [mul_comm]
  constructor
  · rw [h1, Nat.mul_add_div hpos, Nat.div_eq_of_lt hlt, add_zero]
    simp [wordKey, wordOffset]
  · rw [h1, Nat.mul_add_mod, Nat.mod_eq_of_lt hlt]
    rfl

/-- the step of the recursion -/
theorem Brackets.cons (hnew : HallSet.new w (m + 1) = some hs) (hr : Rep (hallTable w m) hs)
    (he : HallElems hs e) {fuel : ℕ} {c c' : LieCache} {x y p : Product} {a : Fin w}
    {u : List (Fin w)} (hu : u ≠ []) (hd : (a :: u).length ≤ m + 1) (hx : Brackets e [a] x)
    (hy : Brackets e u y) (h : mulProducts (lieProd hs (m + 1) fuel) c x y = some (p, c'))
    (hc : LieHistory w c) : Brackets e (a :: u) p := by
  have hd' : u.length + 1 ≤ m + 1 := hd
  obtain ⟨h1, h2⟩ := mulProducts_ok hnew hr he h hc (a := 1) (b := u.length) (by omega) hx.keys hy.keys
  refine ⟨by rw [List.length_cons, Nat.add_comm]; exact h1, ?_⟩
  rw [h2, hx.value, hy.value, rb_cons a hu]
  rfl

theorem rbracketing_ok (hnew : HallSet.new w (m + 1) = some hs) (hr : Rep (hallTable w m) hs)
    (he : HallElems hs e) (fuel' fuel : ℕ) :
    ∀ (st : Memo × LieCache) (k : Key) (p : Product) (st' : Memo × LieCache),
      rbracketing w (m + 1) hs (lieProd hs (m + 1) fuel') fuel st k = some (p, st') →
      LieHistory w st.2 → BracketsOK e (m + 1) st.1 →
      LieHistory w st'.2 ∧ BracketsOK e (m + 1) st'.1 ∧
      ∀ u : List (Fin w), wordKey u = k → u ≠ [] → u.length ≤ m + 1 → Brackets e u p := by
  induction fuel with
  | zero => intro st k p st' h; cases h
  | succ fuel ih =>
    intro st k p st' h hl hm
    rw [rbracketing] at h
    dsimp only at h
    by_cases h0 : k.deg = 0
    · rw [if_pos h0, Option.some.injEq, Prod.mk.injEq] at h
      obtain ⟨rfl, rfl⟩ := h
      refine ⟨hl, hm, fun u hu hne => absurd ?_ hne⟩
      rw [← hu] at h0
      exact List.length_eq_zero_iff.1 h0
    rw [if_neg h0] at h
    cases hc : st.1 k with
    | some q =>
      rw [hc] at h
      dsimp only at h
      rw [Option.some.injEq, Prod.mk.injEq] at h
      obtain ⟨rfl, rfl⟩ := h
      exact ⟨hl, hm, fun u hu hne hd => hm u q hne hd (by rw [hu]; exact hc)⟩
    | none =>
    rw [hc] at h
    dsimp only at h
    by_cases h1 : k.deg = 1
    · rw [if_pos h1, Option.some.injEq, Prod.mk.injEq] at h
      obtain ⟨rfl, rfl⟩ := h
      exact ⟨hl, hm.update fun u hu _ _ => letter_brackets he hu h1,
        fun u hu _ _ => letter_brackets he hu h1⟩
    rw [if_neg h1] at h
    cases hp : (tensorPowers w (m + 1))[k.deg - 1]? with
    | none => rw [hp] at h; cases h
    | some power =>
    rw [hp] at h
    simp only [Option.bind_eq_bind, Option.bind_some] at h
    by_cases hz : power = 0
    · rw [if_pos hz] at h; cases h
    rw [if_neg hz] at h
    cases hL : rbracketing w (m + 1) hs (lieProd hs (m + 1) fuel') fuel st ⟨1, k.idx / power⟩ with
    | none => rw [hL] at h; cases h
    | some l =>
    rw [hL] at h
    simp only [Option.bind_some] at h
    cases hR : rbracketing w (m + 1) hs (lieProd hs (m + 1) fuel') fuel l.2
        ⟨k.deg - 1, k.idx % power⟩ with
    | none => rw [hR] at h; cases h
    | some r =>
    rw [hR] at h
    simp only [Option.bind_some] at h
    cases hg : mulProducts (lieProd hs (m + 1) fuel') r.2.2 l.1 r.1 with
    | none => rw [hg] at h; cases h
    | some g =>
    rw [hg] at h
    simp only [Option.bind_some, Option.some.injEq, Prod.mk.injEq] at h
    obtain ⟨rfl, rfl⟩ := h
    obtain ⟨a1, a2, a3⟩ := ih st _ l.1 l.2 hL hl hm
    obtain ⟨b1, b2, b3⟩ := ih l.2 _ r.1 r.2 hR a1 a2
    have key : ∀ u : List (Fin w), wordKey u = k → u ≠ [] → u.length ≤ m + 1 → Brackets e u g.1 := by
      intro u hu hne hd
      obtain ⟨a, v, rfl⟩ := List.exists_cons_of_ne_nil hne
      have hk : k.deg = v.length + 1 := by rw [← hu]; rfl
      have hv : v ≠ [] := fun hv => h1 (by rw [hk, hv]; rfl)
      have hv' := List.length_pos_of_ne_nil hv
      rw [List.length_cons] at hd
      rw [hk, Nat.add_sub_cancel, tensorPowers_get (by omega), Option.some.injEq] at hp
      obtain ⟨w1, w2⟩ := wordKey_cons a v
      rw [← hp, ← hu] at a3 b3
      exact Brackets.cons hnew hr he hv hd (a3 [a] w1.symm (by simp) (by simp))
        (b3 v w2.symm hv (by omega)) hg b1
    exact ⟨mulProducts_history hnew hg b1, b2.update key, key⟩

theorem rbracketing_total (hnew : HallSet.new w (m + 1) = some hs) (hr : Rep (hallTable w m) hs)
    (he : HallElems hs e) {fuel' : ℕ}
    (htot : ∀ c l r, LieHistory w c → HallKey w l → HallKey w r → l.deg + r.deg ≤ m + 1 →
      ∃ out, lieProd hs (m + 1) fuel' c l r = some out) (fuel : ℕ) :
    ∀ (st : Memo × LieCache) (u : List (Fin w)), u ≠ [] → u.length ≤ m + 1 → u.length ≤ fuel →
      LieHistory w st.2 → BracketsOK e (m + 1) st.1 →
      ∃ out, rbracketing w (m + 1) hs (lieProd hs (m + 1) fuel') fuel st (wordKey u) = some out := by
  induction fuel with
  | zero =>
    intro st u hne _ hf
    have := List.length_pos_of_ne_nil hne
    omega
  | succ fuel ih =>
    intro st u hne hd hf hl hm
    have hpos := List.length_pos_of_ne_nil hne
    have hk : (wordKey u).deg = u.length := rfl
    rw [rbracketing]
    dsimp only
    rw [if_neg (by omega)]
    cases hc : st.1 (wordKey u) with
    | some q => exact ⟨_, rfl⟩
    | none =>
    dsimp only
    by_cases h1 : (wordKey u).deg = 1
    · rw [if_pos h1]; exact ⟨_, rfl⟩
    rw [if_neg h1]
    obtain ⟨a, v, rfl⟩ := List.exists_cons_of_ne_nil hne
    have hk : (wordKey (a :: v)).deg = v.length + 1 := rfl
    have hv : v ≠ [] := fun hv => h1 (by rw [hk, hv]; rfl)
    rw [List.length_cons] at hd hf
    obtain ⟨w1, w2⟩ := wordKey_cons a v
    have hp : (tensorPowers w (m + 1))[(wordKey (a :: v)).deg - 1]? = some (w ^ v.length) := by
      rw [hk, Nat.add_sub_cancel, tensorPowers_get (by omega)]
    rw [hp]
    simp only [Option.bind_eq_bind, Option.bind_some]
    have := a.isLt
    rw [if_neg (pow_pos (by omega) _).ne', w1, w2]
    have hv' := List.length_pos_of_ne_nil hv
    obtain ⟨l, hL⟩ := ih st [a] (by simp) (by simp) (by simp; omega) hl hm
    obtain ⟨a1, a2, a3⟩ := rbracketing_ok hnew hr he fuel' fuel st _ l.1 l.2 hL hl hm
    obtain ⟨r, hR⟩ := ih l.2 v hv (by omega) (by omega) a1 a2
    obtain ⟨b1, b2, b3⟩ := rbracketing_ok hnew hr he fuel' fuel l.2 _ r.1 r.2 hR a1 a2
    obtain ⟨g, hg⟩ := mulProducts_total hnew hr he htot b1 (a := 1) (b := v.length) (by omega)
      (a3 [a] rfl (by simp) (by simp)).keys (b3 v rfl hv (by omega)).keys
    rw [hL]
    simp only [Option.bind_some]
    rw [hR]
    simp only [Option.bind_some]
    rw [hg]
    exact ⟨_, rfl⟩

/-! ## What is remembered is right -/

theorem MapsHistory.ok (hnew : HallSet.new w (m + 1) = some hs) (hr : Rep (hallTable w m) hs)
    (he : HallElems hs e) {st : MapsState} (h : MapsHistory w (m + 1) hs st) :
    MemoOK e (m + 1) st.expanded ∧ BracketsOK e (m + 1) st.bracketed ∧ LieHistory w st.lie := by
  induction h with
  | fresh hc =>
    exact ⟨fun k p _ _ h => (by cases h), fun u p _ _ h => (by cases h), hc⟩
  | expand _ h2 ih => exact ⟨(expand_ok hr he _ _ _ _ _ h2 ih.1).1, ih.2⟩
  | bracket _ h2 ih =>
    obtain ⟨a, b, -⟩ := rbracketing_ok hnew hr he _ _ _ _ _ _ h2 ih.2.2 ih.2.1
    exact ⟨ih.1, b, a⟩
  | other _ h2 ih => exact ⟨ih.1, ih.2.1, h2⟩

end RoughPy.Lite
