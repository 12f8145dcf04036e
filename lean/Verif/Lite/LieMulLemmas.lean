import Verif.Lite.LieModel
import Verif.Lite.LieSpec
import Verif.Lite.HallKeys
import Verif.Lite.VecLemmas

set_option linter.unusedSectionVars false

/-! # The product of keys is the bracket, in every state of the cache -/

namespace RoughPy.Lite

open RoughPy.Tensor (loop loop_nil loop_cons)
open RoughPy.Lie (IsHallTable HasDegree hallTable hallTable_isHall)

variable {L : Type*} [LieRing L] (e : Key → L)

namespace Product

theorem value_nil : value e [] = 0 := rfl

theorem value_cons (t : Key × ℤ) (p : Product) : value e (t :: p) = t.2 • e t.1 + value e p := by
  unfold value
  rw [List.map_cons, List.sum_cons]

theorem value_uminus (p : Product) : value e p.uminus = -value e p := by
  induction p with
  | nil => simp [uminus, value]
  | cons t p ih =>
    show value e ((t.1, -t.2) :: uminus p) = _
    rw [value_cons, value_cons, ih, neg_add, neg_smul]

theorem value_set_new {m : SMap Key ℤ} {k : Key} {v : ℤ} (h : SMap.find m k = none) :
    value e (SMap.set m k v) = value e m + v • e k := by
  induction m with
  | nil => simp [SMap.set, value]
  | cons t m ih =>
    obtain ⟨k', v'⟩ := t
    simp only [SMap.find] at h
    simp only [SMap.set]
    split_ifs at h ⊢ with h1 h2
    · rw [value_cons, add_comm]
    · rw [value_cons, value_cons, ih h, add_assoc]

theorem value_set_old {m : SMap Key ℤ} {k : Key} {v x : ℤ} (hs : SMap.Sorted m)
    (h : SMap.find m k = some x) : value e (SMap.set m k v) = value e m + (v - x) • e k := by
  induction m with
  | nil => simp [SMap.find] at h
  | cons t m ih =>
    obtain ⟨k', v'⟩ := t
    simp only [SMap.find] at h
    simp only [SMap.set]
    by_cases hkk : k = k'
    · subst hkk
      rw [if_pos rfl, Option.some.injEq] at h
      subst h
      rw [if_neg (lt_irrefl _), if_pos rfl, value_cons, value_cons]
      dsimp only
      rw [sub_smul]
      abel
    · rw [if_neg hkk] at h
      have hlt : ¬ k < k' := by
        intro hlt
        have hm := SMap.mem_of_find h
        exact absurd (hs.head_lt _ hm) (by dsimp only; exact not_lt.2 hlt.le)
      rw [if_neg hlt, if_neg hkk, value_cons, value_cons, ih hs.tail h, add_assoc]

theorem accumulate_sorted {m : SMap Key ℤ} (hs : SMap.Sorted m) (k : Key) (v : ℤ) :
    SMap.Sorted (accumulate m k v) := by
  unfold accumulate
  split <;> exact SMap.sorted_set hs _ _

theorem value_accumulate {m : SMap Key ℤ} (hs : SMap.Sorted m) (k : Key) (v : ℤ) :
    value e (accumulate m k v) = value e m + v • e k := by
  unfold accumulate
  split
  · rename_i x h
    rw [value_set_old e hs h, add_sub_cancel_left]
  · rename_i h
    exact value_set_new e h

theorem keys_accumulate {P : Key → Prop} {m : SMap Key ℤ} (hm : ∀ t ∈ m, P t.1) {k : Key}
    (hk : P k) (v : ℤ) : ∀ t ∈ accumulate m k v, P t.1 := by
  intro t ht
  unfold accumulate at ht
  split at ht <;>
  · rcases SMap.mem_set ht with h | h
    · rw [h]; exact hk
    · exact hm t h

/-- adding a list of terms -/
theorem foldl_accumulate {P : Key → Prop} (x : Product) (f : Key × ℤ → ℤ) :
    ∀ m : SMap Key ℤ, SMap.Sorted m →
      SMap.Sorted (x.foldl (fun m t => accumulate m t.1 (f t)) m) ∧
      value e (x.foldl (fun m t => accumulate m t.1 (f t)) m) =
        value e m + (x.map fun t => f t • e t.1).sum ∧
      ((∀ t ∈ m, P t.1) → (∀ t ∈ x, P t.1) →
        ∀ t ∈ x.foldl (fun m t => accumulate m t.1 (f t)) m, P t.1) := by
  induction x with
  | nil => intro m hm; exact ⟨hm, by simp, fun h _ => h⟩
  | cons t x ih =>
    intro m hm
    obtain ⟨h1, h2, h3⟩ := ih (accumulate m t.1 (f t)) (accumulate_sorted hm _ _)
    refine ⟨h1, ?_, fun hm' hx => h3 (keys_accumulate hm' (hx t List.mem_cons_self) _)
      fun s hs => hx s (List.mem_cons_of_mem _ hs)⟩
    rw [List.foldl_cons, h2, value_accumulate e hm, List.map_cons, List.sum_cons, add_assoc]

theorem sum_smul_value (x : Product) (v : ℤ) :
    (x.map fun t => (v * t.2) • e t.1).sum = v • value e x := by
  unfold value
  induction x with
  | nil => simp
  | cons t x ih =>
    rw [List.map_cons, List.sum_cons, List.map_cons, List.sum_cons, ih, smul_add, mul_smul]

theorem value_lie (x : Product) (z : L) :
    (x.map fun t => t.2 • ⁅e t.1, z⁆).sum = ⁅value e x, z⁆ := by
  unfold value
  induction x with
  | nil => simp
  | cons t x ih =>
    rw [List.map_cons, List.sum_cons, List.map_cons, List.sum_cons, ih, add_lie, smul_lie]

theorem toMap_of_sorted {x : Product} (h : SMap.Sorted x) : x.toMap = x := by
  have key : ∀ (x m : SMap Key ℤ), SMap.Sorted (m ++ x) →
      x.foldl (fun m e => match SMap.find m e.1 with
        | some _ => m
        | none => SMap.set m e.1 e.2) m = m ++ x := by
    intro x
    induction x with
    | nil => intro m _; simp
    | cons t x ih =>
      intro m hm
      have hlt : ∀ s ∈ m, s.1 < t.1 := fun s hs =>
        (List.pairwise_append.1 hm).2.2 s hs t List.mem_cons_self
      have hnone : SMap.find m t.1 = none :=
        SMap.find_eq_none_of_forall fun s hs => ne_of_lt (hlt s hs)
      have hset : ∀ m : SMap Key ℤ, (∀ s ∈ m, s.1 < t.1) → SMap.set m t.1 t.2 = m ++ [t] := by
        intro m
        induction m with
        | nil => intro _; rfl
        | cons s m ih2 =>
          intro hs
          have h1 := hs s List.mem_cons_self
          simp only [SMap.set]
          rw [if_neg (not_lt.2 h1.le), if_neg (ne_of_gt h1), ih2 fun s' hs' =>
            hs s' (List.mem_cons_of_mem _ hs')]
          rfl
      rw [List.foldl_cons, hnone]
      dsimp only
      rw [hset m hlt, ih _ (by rw [List.append_assoc]; exact hm), List.append_assoc]
      rfl
  exact key x [] h

theorem sub_spec {P : Key → Prop} {x y : Product} (hx : SMap.Sorted x) :
    SMap.Sorted (x.sub y) ∧ value e (x.sub y) = value e x - value e y ∧
      ((∀ t ∈ x, P t.1) → (∀ t ∈ y, P t.1) → ∀ t ∈ x.sub y, P t.1) := by
  unfold sub
  rw [toMap_of_sorted hx]
  obtain ⟨h1, h2, h3⟩ := foldl_accumulate e (P := P) y (fun t => -t.2) x hx
  refine ⟨h1, ?_, h3⟩
  rw [h2, sub_eq_add_neg]
  congr 1
  have := sum_smul_value e y (-1)
  simp only [neg_one_mul, neg_smul, one_smul] at this
  simp only [neg_smul]
  exact this

end Product

/-! ## Expansions of brackets -/

/-- `p` expands the bracket of `l` and `r` in keys of the right degree. -/
structure ProdOK (w : ℕ) (l r : Key) (p : Product) : Prop where
  keys : ∀ t ∈ p, HallKey w t.1 ∧ t.1.deg = l.deg + r.deg
  value : Product.value e p = ⁅e l, e r⁆

/-- `e` sends every key of degree between two and `D` to the bracket of its parents. -/
def BracketUpTo (w D : ℕ) : Prop :=
  ∀ k p q, ParentsOf w k p q → 2 ≤ k.deg → k.deg ≤ D → e k = ⁅e p, e q⁆

/-- The entries of the cache up to degree `D` are right. -/
def LieCacheOK (w D : ℕ) (cache : LieCache) : Prop :=
  ∀ l r, HallKey w l → HallKey w r → l.deg + r.deg ≤ D → cache (l, r) ≠ [] →
    ProdOK e w l r (cache (l, r))

/-- What is known of the result of a multiplication of keys that returns. -/
def OpOK (w D depth : ℕ) (op : KeyOp) : Prop :=
  ∀ cache l r p cache', op cache l r = some (p, cache') → LieCacheOK e w D cache →
    LieCacheOK e w D cache' ∧ (HallKey w l → HallKey w r → l.deg + r.deg ≤ D →
      (l.deg + r.deg ≤ depth ∨ p ≠ []) → ProdOK e w l r p)

variable {e} {w D depth : ℕ}

theorem mulKey_ok {op : KeyOp} (hop : OpOK e w D depth op) {r : Key} : ∀ (x acc : Product)
    (cache : LieCache) (out : Product × LieCache), LieCacheOK e w D cache →
    loop x (acc, cache) (fun (st : Product × LieCache) outer => do
      let p ← op st.2 outer.1 r
      some (p.1.foldl (fun m inner => Product.accumulate m inner.1 (outer.2 * inner.2)) st.1, p.2)) =
      some out →
    LieCacheOK e w D out.2 ∧ (SMap.Sorted acc → SMap.Sorted out.1) ∧
      ∀ n, n ≤ D → n ≤ depth → HallKey w r → SMap.Sorted acc →
        (∀ t ∈ acc, HallKey w t.1 ∧ t.1.deg = n) →
        (∀ t ∈ x, HallKey w t.1 ∧ t.1.deg + r.deg = n) →
        (∀ t ∈ out.1, HallKey w t.1 ∧ t.1.deg = n) ∧
        Product.value e out.1 = Product.value e acc + ⁅Product.value e x, e r⁆ := by
  intro x
  induction x with
  | nil =>
    intro acc cache out hc h
    rw [loop_nil, Option.some.injEq] at h
    subst h
    exact ⟨hc, id, fun n _ _ _ _ ha _ => ⟨ha, by rw [Product.value_nil, zero_lie, add_zero]⟩⟩
  | cons t x ih =>
    intro acc cache out hc h
    rw [loop_cons] at h
    dsimp only at h
    cases h1 : op cache t.1 r with
    | none => rw [h1] at h; cases h
    | some pc =>
      obtain ⟨p, c1⟩ := pc
      rw [h1] at h
      simp only [Option.bind_eq_bind, Option.bind_some] at h
      obtain ⟨g1, g2⟩ := hop cache t.1 r p c1 h1 hc
      obtain ⟨k1, k2, k3⟩ := ih _ _ _ g1 h
      refine ⟨k1, fun ha => k2 (Product.foldl_accumulate e (P := fun _ => True) p
        (fun s => t.2 * s.2) acc ha).1, fun n hn hnd hr ha hak hx => ?_⟩
      obtain ⟨ht1, ht2⟩ := hx t List.mem_cons_self
      have hp := g2 ht1 hr (by omega) (Or.inl (by omega))
      obtain ⟨f1, f2, f3⟩ := Product.foldl_accumulate e (P := fun k => HallKey w k ∧ k.deg = n) p
        (fun s => t.2 * s.2) acc ha
      obtain ⟨l1, l2⟩ := k3 n hn hnd hr f1
        (f3 hak fun s hs => by rw [← ht2]; exact hp.keys s hs)
        fun s hs => hx s (List.mem_cons_of_mem _ hs)
      refine ⟨l1, ?_⟩
      rw [l2, f2, Product.sum_smul_value, hp.value, Product.value_cons, add_lie, smul_lie, add_assoc]

theorem keyProdImpl_ok {hs : HallSet} (hh : HallRep w depth hs) (he : BracketUpTo e w D) {op : KeyOp}
    (hop : OpOK e w D depth op) {cache cache' : LieCache} {l r : Key} {p : Product} (hne : l ≠ r)
    (h : keyProdImpl hs depth op cache l r = some (p, cache')) (hc : LieCacheOK e w D cache) :
    LieCacheOK e w D cache' ∧ (HallKey w l → HallKey w r → l.deg + r.deg ≤ D →
      (l.deg + r.deg ≤ depth ∨ p ≠ []) → ProdOK e w l r p) := by
  unfold keyProdImpl at h
  by_cases hlt : r < l
  · rw [if_pos hlt] at h
    cases h1 : op cache r l with
    | none => rw [h1] at h; cases h
    | some pc =>
      obtain ⟨p1, c1⟩ := pc
      rw [h1] at h
      simp only [Option.bind_eq_bind, Option.bind_some, Option.some.injEq, Prod.mk.injEq] at h
      obtain ⟨rfl, rfl⟩ := h
      obtain ⟨g1, g2⟩ := hop cache r l p1 c1 h1 hc
      refine ⟨g1, fun hl hr hd hp => ?_⟩
      have hok := g2 hr hl (by omega) (hp.imp (fun h => by omega) fun h h' => h (by rw [h']; rfl))
      refine ⟨fun t ht => ?_, ?_⟩
      · obtain ⟨s, hs, rfl⟩ := List.mem_map.1 ht
        have := hok.keys s hs
        exact ⟨this.1, by rw [Nat.add_comm]; exact this.2⟩
      · rw [Product.value_uminus, hok.value, lie_skew]
  rw [if_neg hlt] at h
  have hlr : l < r := lt_of_le_of_ne (not_lt.1 hlt) hne
  by_cases hdep : l.deg + r.deg > depth
  · rw [if_pos hdep, Option.some.injEq, Prod.mk.injEq] at h
    obtain ⟨rfl, rfl⟩ := h
    exact ⟨hc, fun _ _ _ hp => absurd hp (by
      rintro (h | h)
      · omega
      · exact h rfl)⟩
  rw [if_neg hdep] at h
  cases hf : hs.find (l, r) with
  | some k =>
    rw [hf] at h
    simp only [Option.some.injEq, Prod.mk.injEq] at h
    obtain ⟨rfl, rfl⟩ := h
    refine ⟨hc, fun hl hr hd _ => ?_⟩
    rcases hh.find_pair hl hr hlr (by omega) with ⟨k', h1, h2, h3⟩ | ⟨h1, -⟩
    · rw [hf, Option.some.injEq] at h1
      subst h1
      refine ⟨fun t ht => ?_, ?_⟩
      · rw [List.mem_singleton] at ht
        rw [ht]
        exact ⟨h3.hallKey, h2⟩
      · rw [Product.value_cons, Product.value_nil, add_zero]
        dsimp only
        have := hl.deg_pos
        have := hr.deg_pos
        rw [one_smul, he k l r h3 (by omega) (by omega)]
    · rw [hf] at h1; cases h1
  | none =>
    rw [hf] at h
    dsimp only at h
    cases hpar : hs.parents r with
    | none => rw [hpar] at h; cases h
    | some pr =>
      rw [hpar] at h
      simp only [Option.bind_eq_bind, Option.bind_some] at h
      cases h1 : op cache l pr.1 with
      | none => rw [h1] at h; cases h
      | some o1 =>
      rw [h1] at h
      simp only [Option.bind_some] at h
      cases h2 : mulKey op o1.2 o1.1 pr.2 with
      | none => rw [h2] at h; cases h
      | some o2 =>
      rw [h2] at h
      simp only [Option.bind_some] at h
      cases h3 : op o2.2 l pr.2 with
      | none => rw [h3] at h; cases h
      | some o3 =>
      rw [h3] at h
      simp only [Option.bind_some] at h
      cases h4 : mulKey op o3.2 o3.1 pr.1 with
      | none => rw [h4] at h; cases h
      | some o4 =>
      rw [h4] at h
      simp only [Option.bind_some, Option.some.injEq, Prod.mk.injEq] at h
      obtain ⟨rfl, rfl⟩ := h
      obtain ⟨g1, k1⟩ := hop cache l pr.1 o1.1 o1.2 h1 hc
      obtain ⟨g2, s2, k2⟩ := mulKey_ok hop o1.1 [] o1.2 o2 g1 h2
      obtain ⟨g3, k3⟩ := hop o2.2 l pr.2 o3.1 o3.2 h3 g2
      obtain ⟨g4, s4, k4⟩ := mulKey_ok hop o3.1 [] o3.2 o4 g3 h4
      refine ⟨g4, fun hl hr hd _ => ?_⟩
      have hsub := Product.sub_spec e (P := fun k => HallKey w k ∧ k.deg = l.deg + r.deg) (y := o4.1)
        (s2 SMap.sorted_nil)
      rcases hh.find_pair hl hr hlr (by omega) with ⟨k', e1, -⟩ | ⟨-, p, q, e1, e2, e3, e4⟩
      · rw [hf] at e1; cases e1
      · rw [hpar, Option.some.injEq] at e1
        subst e1
        obtain ⟨hp, hq, hdeg, hpq⟩ := e2.parents e3
        dsimp only at *
        have ok1 := k1 hl hp (by omega) (Or.inl (by omega))
        have ok3 := k3 hl hq (by omega) (Or.inl (by omega))
        obtain ⟨a1, a2⟩ := k2 (l.deg + r.deg) (by omega) (by omega) hq SMap.sorted_nil (by simp)
          fun t ht => ⟨(ok1.keys t ht).1, by rw [(ok1.keys t ht).2]; omega⟩
        obtain ⟨b1, b2⟩ := k4 (l.deg + r.deg) (by omega) (by omega) hp SMap.sorted_nil (by simp)
          fun t ht => ⟨(ok3.keys t ht).1, by rw [(ok3.keys t ht).2]; omega⟩
        refine ⟨hsub.2.2 a1 b1, ?_⟩
        rw [hsub.2.1, a2, b2, ok1.value, ok3.value, Product.value_nil, zero_add, zero_add,
          he r p q e2 e3 (by omega), leibniz_lie, sub_eq_add_neg, lie_skew]

/-- Every product that is returned is right, and leaves the cache right. -/
theorem lieProd_ok {hs : HallSet} (hh : HallRep w depth hs) (he : BracketUpTo e w D) (fuel : ℕ) :
    OpOK e w D depth (lieProd hs depth fuel) := by
  induction fuel with
  | zero => intro cache l r p cache' h; cases h
  | succ fuel ih =>
    intro cache l r p cache' h hc
    unfold lieProd at h
    by_cases hlr : l = r
    · rw [if_pos hlr, Option.some.injEq, Prod.mk.injEq] at h
      obtain ⟨rfl, rfl⟩ := h
      subst hlr
      exact ⟨hc, fun _ _ _ _ => ⟨by simp, by rw [Product.value_nil, lie_self]⟩⟩
    rw [if_neg hlr] at h
    by_cases hcache : cache (l, r) ≠ []
    · rw [if_pos hcache, Option.some.injEq, Prod.mk.injEq] at h
      obtain ⟨rfl, rfl⟩ := h
      exact ⟨hc, fun hl hr hd _ => hc l r hl hr hd hcache⟩
    rw [if_neg hcache] at h
    cases h1 : keyProdImpl hs depth (lieProd hs depth fuel) cache l r with
    | none => rw [h1] at h; cases h
    | some o =>
      rw [h1] at h
      simp only [Option.bind_eq_bind, Option.bind_some, Option.some.injEq, Prod.mk.injEq] at h
      obtain ⟨rfl, rfl⟩ := h
      obtain ⟨g1, g2⟩ := keyProdImpl_ok hh he ih hlr h1 hc
      refine ⟨fun l' r' hl hr hd hne => ?_, g2⟩
      by_cases heq : ((l', r') : Key × Key) = (l, r)
      · rw [heq, Function.update_self] at hne ⊢
        rw [Prod.mk.injEq] at heq
        obtain ⟨rfl, rfl⟩ := heq
        exact g2 hl hr hd (Or.inr hne)
      · rw [Function.update_of_ne heq] at hne ⊢
        exact g1 l' r' hl hr hd hne

/-! ## Termination -/

/-- what decreases in the recursion -/
def meas (b : Lie.Basis) (l r : Key) (i j : ℕ) : ℕ :=
  2 * Lie.mu b (l.deg + r.deg) (min i j) + if r < l then 1 else 0

/-- The multiplication returns for pairs of measure less than `N`. -/
def OpTotal (e : Key → L) (w D depth : ℕ) (b : Lie.Basis) (op : KeyOp) (N : ℕ) : Prop :=
  ∀ cache i j, LieCacheOK e w D cache → 0 < i → i < b.data.length → 0 < j → j < b.data.length →
    (keyAt b i).deg + (keyAt b j).deg ≤ depth → meas b (keyAt b i) (keyAt b j) i j < N →
    ∃ out, op cache (keyAt b i) (keyAt b j) = some out

theorem mulKey_total {m N : ℕ} {op : KeyOp} (hop : OpOK e w D depth op)
    (ht : OpTotal e w D depth (hallTable w m) op N) (hm : depth ≤ m + 1) {j a n : ℕ} (hj : 0 < j)
    (hj' : j < (hallTable w m).data.length) (haj : a < j)
    (hn : 2 * Lie.mu (hallTable w m) n a ≤ N) (hnd : n ≤ depth) :
    ∀ (x acc : Product) (cache : LieCache), LieCacheOK e w D cache →
    (∀ t ∈ x, HallKey w t.1 ∧ t.1.deg + (keyAt (hallTable w m) j).deg = n ∧
      keyAt (hallTable w m) a < t.1) →
    ∃ out, loop x (acc, cache) (fun (st : Product × LieCache) outer => do
      let p ← op st.2 outer.1 (keyAt (hallTable w m) j)
      some (p.1.foldl (fun m inner => Product.accumulate m inner.1 (outer.2 * inner.2)) st.1, p.2)) =
      some out := by
  intro x
  induction x with
  | nil => intro acc cache _ _; exact ⟨_, rfl⟩
  | cons t x ih =>
    intro acc cache hc hx
    obtain ⟨h1, h2, h3⟩ := hx t List.mem_cons_self
    have hb := hallTable_isHall w m
    obtain ⟨i, i1, i2, i3⟩ := h1.index (m := m) (by omega)
    rw [i3] at h2 h3
    have hai := (keyAt_lt_iff hb (lt_trans haj hj') i2).1 h3
    obtain ⟨⟨p, c1⟩, ho⟩ := ht cache i j hc i1 i2 hj hj' (by omega) (by
      unfold meas
      have := Lie.mu_lt_of_key (b := hallTable w m) (n := n) (a := a) (a' := min i j)
        (by omega) (by omega)
      rw [h2]
      split_ifs <;> omega)
    rw [loop_cons]
    dsimp only
    rw [i3, ho]
    simp only [Option.bind_eq_bind, Option.bind_some]
    exact ih _ _ (hop _ _ _ _ _ ho hc).1 fun s hs => hx s (List.mem_cons_of_mem _ hs)

theorem lieProd_total {hs : HallSet} {m : ℕ} (hrep : Rep (hallTable w m) hs) (hm : depth ≤ m + 1)
    (hD : depth ≤ D) (he : BracketUpTo e w D) (fuel : ℕ) :
    OpTotal e w D depth (hallTable w m) (lieProd hs depth fuel) fuel := by
  have hh : HallRep w depth hs := ⟨m, hrep, hm⟩
  have hb := hallTable_isHall w m
  induction fuel with
  | zero => intro cache i j _ _ _ _ _ _ h; omega
  | succ fuel ih =>
    intro cache i j hc hi hi' hj hj' hd hme
    have hop := lieProd_ok hh he fuel
    unfold lieProd
    by_cases hij : keyAt (hallTable w m) i = keyAt (hallTable w m) j
    · rw [if_pos hij]; exact ⟨_, rfl⟩
    rw [if_neg hij]
    split_ifs with hcache
    · exact ⟨_, rfl⟩
    suffices h : ∃ out, keyProdImpl hs depth (lieProd hs depth fuel) cache (keyAt (hallTable w m) i)
        (keyAt (hallTable w m) j) = some out by
      obtain ⟨out, h⟩ := h
      rw [h]
      exact ⟨_, rfl⟩
    unfold keyProdImpl
    by_cases hlt : keyAt (hallTable w m) j < keyAt (hallTable w m) i
    · rw [if_pos hlt]
      obtain ⟨out, ho⟩ := ih cache j i hc hj hj' hi hi' (by omega) (by
        unfold meas at hme ⊢
        rw [if_pos hlt] at hme
        rw [if_neg (not_lt.2 hlt.le), Nat.add_comm (keyAt _ j).deg, Nat.min_comm j i]
        omega)
      rw [ho]
      exact ⟨_, rfl⟩
    rw [if_neg hlt, if_neg (by omega)]
    have hlr : keyAt (hallTable w m) i < keyAt (hallTable w m) j :=
      lt_of_le_of_ne (not_lt.1 hlt) hij
    have hij' := (keyAt_lt_iff hb hi' hj').1 hlr
    rcases hh.find_pair (hallKey_of_index hi hi') (hallKey_of_index hj hj') hlr hd with
      ⟨k', e1, -⟩ | ⟨e0, p, q, e1, e2, e3, e4⟩
    · rw [e1]; exact ⟨_, rfl⟩
    rw [e0, e1]
    simp only [Option.bind_eq_bind, Option.bind_some]
    obtain ⟨hp, hq, hdeg, hpq⟩ := e2.parents e3
    have hp0 := hp.deg_pos
    have hq0 := hq.deg_pos
    obtain ⟨a, a1, a2, rfl⟩ := hp.index (m := m) (by omega)
    obtain ⟨c, c1, c2, rfl⟩ := hq.index (m := m) (by omega)
    have hia := (keyAt_lt_iff hb hi' a2).1 e4
    have hac := (keyAt_lt_iff hb a2 c2).1 hpq
    have hN : 2 * Lie.mu (hallTable w m) ((keyAt (hallTable w m) i).deg +
        (keyAt (hallTable w m) j).deg) i ≤ fuel := by
      unfold meas at hme
      rw [if_neg hlt, Nat.min_eq_left hij'.le] at hme
      omega
    have small : ∀ x, (keyAt (hallTable w m) x).deg < (keyAt (hallTable w m) j).deg →
        meas (hallTable w m) (keyAt (hallTable w m) i) (keyAt (hallTable w m) x) i x < fuel := by
      intro x hx
      unfold meas
      have := Lie.mu_lt_of_degree (b := hallTable w m) (n' := (keyAt (hallTable w m) i).deg +
        (keyAt (hallTable w m) x).deg) (n := (keyAt (hallTable w m) i).deg +
        (keyAt (hallTable w m) j).deg) (a := i) (a' := min i x) (by omega)
      split_ifs <;> omega
    have above : ∀ (x : Key), (keyAt (hallTable w m) i).deg < x.deg →
        keyAt (hallTable w m) i < x := fun x hx => Key.lt_iff.2 (Or.inl hx)
    obtain ⟨⟨x1, k1⟩, o1⟩ := ih cache i a hc hi hi' a1 a2 (by omega) (small a (by omega))
    obtain ⟨g1, v1⟩ := hop _ _ _ _ _ o1 hc
    have ok1 := v1 (hallKey_of_index hi hi') hp (by omega) (Or.inl (by omega))
    rw [o1]
    simp only [Option.bind_some]
    obtain ⟨⟨x2, k2⟩, o2⟩ := mulKey_total hop ih hm (j := c) (a := i) (n := _) c1 c2 (by omega) hN hd
      x1 [] k1 g1 fun t ht => ⟨(ok1.keys t ht).1, by rw [(ok1.keys t ht).2]; omega,
        above _ (by rw [(ok1.keys t ht).2]; omega)⟩
    obtain ⟨g2, -⟩ := mulKey_ok hop _ _ _ _ g1 o2
    unfold mulKey
    rw [o2]
    simp only [Option.bind_some]
    obtain ⟨⟨x3, k3⟩, o3⟩ := ih k2 i c g2 hi hi' c1 c2 (by omega) (small c (by omega))
    obtain ⟨g3, v3⟩ := hop _ _ _ _ _ o3 g2
    have ok3 := v3 (hallKey_of_index hi hi') hq (by omega) (Or.inl (by omega))
    rw [o3]
    simp only [Option.bind_some]
    obtain ⟨⟨x4, k4⟩, o4⟩ := mulKey_total hop ih hm (j := a) (a := i) (n := _) a1 a2 (by omega) hN hd
      x3 [] k3 g3 fun t ht => ⟨(ok3.keys t ht).1, by rw [(ok3.keys t ht).2]; omega,
        above _ (by rw [(ok3.keys t ht).2]; omega)⟩
    rw [o4]
    exact ⟨_, rfl⟩

/-- With enough fuel, all products of keys within the depth return. -/
theorem lieProd_total_all {hs : HallSet} (hh : HallRep w depth hs) (hD : depth ≤ D) :
    ∃ n₀, ∀ fuel ≥ n₀, ∀ (L : Type) [LieRing L] (e : Key → L), BracketUpTo e w D →
      ∀ cache l r, LieCacheOK e w D cache → HallKey w l → HallKey w r → l.deg + r.deg ≤ depth →
        ∃ out, lieProd hs depth fuel cache l r = some out := by
  obtain ⟨m, hrep, hm⟩ := hh.rep
  refine ⟨2 * Lie.mu (hallTable w m) (depth + 1) 0 + 2, fun fuel hf L _ e he cache l r hc hl hr hd => ?_⟩
  obtain ⟨i, i1, i2, rfl⟩ := hl.index (m := m) (by omega)
  obtain ⟨j, j1, j2, rfl⟩ := hr.index (m := m) (by omega)
  refine lieProd_total hrep hm hD he fuel cache i j hc i1 i2 j1 j2 hd ?_
  unfold meas
  have := Lie.mu_lt_of_degree (b := hallTable w m) (n' := (keyAt (hallTable w m) i).deg +
    (keyAt (hallTable w m) j).deg) (n := depth + 1) (a := 0) (a' := min i j) (by omega)
  split_ifs <;> omega

theorem lieCacheOK_fresh : LieCacheOK e w D LieCache.fresh :=
  fun _ _ _ _ _ h => absurd rfl h

end RoughPy.Lite
