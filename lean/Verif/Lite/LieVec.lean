import Verif.Lite.LieBasis
import Verif.Lite.GradedLemmas
import Verif.Lite.HistoryLemmas

set_option linter.unusedSectionVars false

/-! # Products of Lie elements -/

namespace RoughPy.Lite

open RoughPy.Tensor RoughPy.Tensor.Series
open RoughPy.Lie (IsHallTable HasDegree hallTable hallTable_isHall Homog)

attribute [local instance] LieRing.ofAssociativeRing

variable {K T : Type}

/-! ## Graded vectors -/

/-- Vectors that keep track of a bound on the degrees of their keys: `Good d v` when the degrees
recorded or stored in `v` are at most `d`. -/
structure VecOps.Graded [Zero K] (V : VecOps K T) (P : Key → Prop) (coef : T → Key → K)
    (Good : ℕ → T → Prop) (depth : ℕ) (strict : Prop) : Prop where
  lawful : V.Lawful P coef (Good depth) strict
  valid_deg : ∀ k, P k → k.deg ≤ depth
  mono : ∀ v d, d ≤ depth → Good d v → Good depth v
  new_good : ∀ d, d ≤ depth → Good d V.new
  setDegree : ∀ v d, d ≤ depth → Good d v → Good d (V.setDegree v d) ∧
    ∀ k, P k → coef (V.setDegree v d) k = coef v k
  modify : ∀ v d, d ≤ depth → Good d v → ∀ k, P k → k.deg ≤ d → ∀ f v',
    V.modify v k f = some v' → Good d v'
  degree : ∀ v, Good depth v → ∀ k, P k → coef v k ≠ 0 → k.deg ≤ V.degree v
  items : ∀ v, Good depth v → ∃ l, V.items v = some l ∧ Items P (coef v) l
  empty : ∀ v, Good depth v → V.empty v = true → ∀ k, P k → coef v k = 0

namespace Sparse
variable [Zero K] [DecidableEq K]

/-- stored keys satisfy `P` and have degree at most `d` -/
def GoodDeg (P : Key → Prop) (d : ℕ) (v : Sparse K) : Prop :=
  GoodOn P v ∧ ∀ k, read v k ≠ 0 → k.deg ≤ d

theorem graded {P : Key → Prop} {depth : ℕ} (hP : ∀ k, P k → k.deg ≤ depth) :
    (ops : VecOps K (Sparse K)).Graded P read (GoodDeg P) depth True := by
  have heq : GoodDeg P depth = (GoodOn P : Sparse K → Prop) := by
    funext v
    refine propext ⟨fun h => h.1, fun h => ⟨h, fun k hk => hP k ?_⟩⟩
    by_contra hn
    exact hk (h.2 k hn)
  refine
    { lawful := heq ▸ lawfulOn P
      valid_deg := hP
      mono := fun v d hd h => ⟨h.1, fun k hk => (h.2 k hk).trans hd⟩
      new_good := fun d _ => ⟨⟨good_nil, fun _ _ => rfl⟩, fun k hk => absurd rfl hk⟩
      setDegree := fun v d _ h => ⟨h, fun _ _ => rfl⟩
      modify := fun v d _ h k hk hkd f v' hv' => ?_
      degree := fun v h k _ hk => deg_le_degree h.1.1 hk
      items := fun v h => ⟨v, rfl, items_of_goodOn h.1⟩
      empty := fun v h he k _ => ?_ }
  · obtain rfl := Option.some.inj hv'
    refine ⟨⟨modify_good h.1.1 k f, fun j hj => ?_⟩, fun j hj => ?_⟩
    · rw [read_modify h.1.1.1, if_neg, h.1.2 j hj]
      rintro rfl; exact hj hk
    · rw [read_modify h.1.1.1] at hj
      split_ifs at hj with hjk
      · rw [hjk]; exact hkd
      · exact h.2 j hj
  · have : v = [] := List.isEmpty_iff.1 he
    subst this
    rfl

end Sparse

namespace Dense
variable [Field K] [DecidableEq K] {B : Basis} {start : ℕ → ℕ}

/-- the recorded degree is at most `d` and covers the storage -/
def GoodDeg (start : ℕ → ℕ) (d : ℕ) (v : Dense K) : Prop :=
  v.degree ≤ d ∧ v.storage.length ≤ start (v.degree + 1)

theorem GoodDeg.fits (hB : B.Lawful start) {v : Dense K} (h : GoodDeg start B.depth v) :
    Fits start B.depth v := h.2.trans (hB.mono (Nat.succ_le_succ h.1))

theorem modify_goodDeg (hB : B.Lawful start) {v : Dense K} {d : ℕ} (hd : d ≤ B.depth)
    (h : GoodDeg start d v) {k : Key} (hk : ValidKey start B.depth k) (hkd : k.deg ≤ d) {f : K → K}
    {v' : Dense K} (hv' : v.modify B k f = some v') : GoodDeg start d v' := by
  unfold modify at hv'
  rw [hB.keyToIndex hk] at hv'
  simp only [Option.bind_eq_bind, Option.bind_some] at hv'
  by_cases hlt : keyIndex start k ≥ v.storage.length
  · rw [if_pos hlt] at hv'
    obtain ⟨i, h1, h2, h3, h4, h5, -⟩ := resize_spec hB v (hk.index_lt hB.mono) hlt
    obtain ⟨v'', e1, e2, e3, -⟩ := update_eq (v := v.resize B (keyIndex start k))
      (i := keyIndex start k) (by omega) f
    rw [e1, Option.some.injEq] at hv'
    subst hv'
    have hi : i ≤ k.deg := by
      by_contra hi
      have := hB.mono (show k.deg + 1 ≤ i by omega)
      have := hk.2
      unfold keyIndex at h5
      omega
    exact ⟨by rw [e3, h2]; omega, by rw [e2, e3, h2, h3]⟩
  · rw [if_neg hlt] at hv'
    obtain ⟨v'', e1, e2, e3, -⟩ := update_eq (v := v) (i := keyIndex start k) (by omega) f
    rw [e1, Option.some.injEq] at hv'
    subst hv'
    exact ⟨by rw [e3]; exact h.1, by rw [e2, e3]; exact h.2⟩

theorem graded (hB : B.Lawful start) (hpos : 0 < start (B.depth + 1)) :
    (ops B : VecOps K (Dense K)).Graded (ValidKey start B.depth) (coef start) (GoodDeg start)
      B.depth False := by
  have hL := lawful (K := K) hB
  have hun : ∀ (v : Dense K), GoodDeg start B.depth v → ∀ f : K → K,
      GoodDeg start B.depth (v.unary f) := fun v hv f =>
    ⟨hv.1, by show (v.storage.map f).length ≤ _; rw [List.length_map]; exact hv.2⟩
  have hbinI : ∀ (a b : Dense K), GoodDeg start B.depth a → GoodDeg start B.depth b →
      ∀ op : K → K → K, GoodDeg start B.depth (binaryInplace op a b) := fun a b ha hb op => by
    unfold GoodDeg
    rw [degree_binaryInplace, length_binaryInplace]
    by_cases h : b.storage.length > a.storage.length
    · rw [if_pos h]
      exact ⟨hb.1, by have := hb.2; omega⟩
    · rw [if_neg h]
      exact ⟨ha.1, by have := ha.2; omega⟩
  refine
    { lawful :=
        { new_good := ⟨Nat.zero_le _, Nat.zero_le _⟩
          new_coef := hL.new_coef
          clear_good := fun v hv => ⟨hv.1, Nat.zero_le _⟩
          clear_coef := fun v hv => hL.clear_coef v (hv.fits hB)
          single := fun k hk s => ?_
          modify := fun v hv k hk f => ?_
          unary := fun v hv f h0 => ⟨hun v hv f, (hL.unary v (hv.fits hB) f h0).2⟩
          unaryInplace := fun v hv f h0 => ⟨hun v hv f, (hL.unaryInplace v (hv.fits hB) f h0).2⟩
          binary := fun a b ha hb op h0 h1 =>
            ⟨⟨max_le ha.1 hb.1, ?_⟩, (hL.binary a b (ha.fits hB) (hb.fits hB) op h0 h1).2⟩
          binaryInplace := fun a b ha hb op h0 h1 => ⟨hbinI a b ha hb op,
            (hL.binaryInplace a b (ha.fits hB) (hb.fits hB) op h0 h1).2⟩
          binarySelf := fun a ha op h0 h1 => ⟨_, rfl, hbinI a a ha ha op, fun k hk => ?_⟩
          beq := fun a b ha hb => hL.beq a b (ha.fits hB) (hb.fits hB) }
      valid_deg := fun k hk => hk.1
      mono := fun v d hd h => ⟨h.1.trans hd, h.2⟩
      new_good := fun d _ => ⟨Nat.zero_le _, Nat.zero_le _⟩
      setDegree := fun v d _ h => ⟨⟨le_refl _, h.2.trans (hB.mono (Nat.succ_le_succ h.1))⟩,
        fun _ _ => rfl⟩
      modify := fun v d hd h k hk hkd f v' hv' => modify_goodDeg hB hd h hk hkd hv'
      degree := fun v h k hk hne => ?_
      items := fun v h => ?_
      empty := fun v h he k _ => ?_ }
  · obtain ⟨v, h1, -, h3⟩ := hL.single k hk s
    refine ⟨v, h1, ?_, h3⟩
    have h1' : single B k s = some v := h1
    rw [single_eq_modify] at h1'
    exact modify_goodDeg hB le_rfl ⟨Nat.zero_le _, Nat.zero_le _⟩ hk hk.1 h1'
  · obtain ⟨v', h1, -, h3⟩ := hL.modify v (hv.fits hB) k hk f
    exact ⟨v', h1, modify_goodDeg hB le_rfl hv hk hk.1 h1, h3⟩
  · show (binary op a b).storage.length ≤ start (max a.degree b.degree + 1)
    rw [length_binary]
    have h2 := hB.mono (show a.degree + 1 ≤ max a.degree b.degree + 1 by omega)
    have h3 := hB.mono (show b.degree + 1 ≤ max a.degree b.degree + 1 by omega)
    have := ha.2
    have := hb.2
    omega
  · obtain ⟨v, e1, -, e3⟩ := hL.binarySelf a (ha.fits hB) op h0 h1
    obtain rfl := Option.some.inj e1
    exact e3 k hk
  · have hlt : keyIndex start k < v.storage.length := by
      by_contra hcon
      exact hne (entry_of_le (by omega))
    by_contra hcon
    have h2 := hB.mono (show v.degree + 1 ≤ k.deg by
      have : ¬ k.deg ≤ v.degree := hcon
      omega)
    have := h.2
    unfold keyIndex at hlt
    omega
  · obtain ⟨r, h1, h2, h3, h4⟩ := items_coef hB hpos (h.fits hB)
    exact ⟨r, h1, h2, h3, h4⟩
  · have : v.storage = [] := List.isEmpty_iff.1 he
    exact entry_of_le (by rw [this]; exact Nat.zero_le _)

end Dense

/-! ## Sums over the keys -/

section sums
variable {b : Lie.Basis} {M : Type*} [AddCommGroup M]

/-- the element with coefficients `c` -/
def lieSer [Semiring K] [Module K M] (b : Lie.Basis) (e : Key → M) (c : Key → K) : M :=
  ∑ i ∈ Finset.range (b.data.length - 1), c (keyAt b (i + 1)) • e (keyAt b (i + 1))

theorem sum_keys (hb : IsHallTable b) {k : Key} (hk : ValidKey (lieStart b) b.depth k)
    (F : Key → M) :
    (∑ i ∈ Finset.range (b.data.length - 1), if k = keyAt b (i + 1) then F (keyAt b (i + 1)) else 0)
      = F k := by
  obtain ⟨i, h1, h2, rfl⟩ := (validKey_iff hb).1 hk
  rw [Finset.sum_eq_single (i - 1)]
  · rw [Nat.sub_add_cancel h1, if_pos rfl]
  · intro j hj hne
    rw [Finset.mem_range] at hj
    refine if_neg fun h => hne ?_
    have := keyAt_inj hb h2 (by omega) h
    omega
  · intro h
    rw [Finset.mem_range] at h
    omega

variable [Ring K] [Module K M] {e : Key → M}

theorem lieSer_congr (hb : IsHallTable b) {c c' : Key → K}
    (h : ∀ k, ValidKey (lieStart b) b.depth k → c k = c' k) : lieSer b e c = lieSer b e c' := by
  unfold lieSer
  refine Finset.sum_congr rfl fun i hi => ?_
  rw [Finset.mem_range] at hi
  rw [h _ ((validKey_iff hb).2 ⟨i + 1, by omega, by omega, rfl⟩)]

theorem lieSer_add (c c' : Key → K) :
    lieSer b e (fun k => c k + c' k) = lieSer b e c + lieSer b e c' := by
  unfold lieSer
  rw [← Finset.sum_add_distrib]
  exact Finset.sum_congr rfl fun i _ => add_smul _ _ _

theorem lieSer_sub (c c' : Key → K) :
    lieSer b e (fun k => c k - c' k) = lieSer b e c - lieSer b e c' := by
  unfold lieSer
  rw [← Finset.sum_sub_distrib]
  exact Finset.sum_congr rfl fun i _ => sub_smul _ _ _

theorem lieSer_neg (c : Key → K) : lieSer b e (fun k => -c k) = -lieSer b e c := by
  unfold lieSer
  rw [← Finset.sum_neg_distrib]
  exact Finset.sum_congr rfl fun i _ => neg_smul _ _

theorem lieSer_smul (a : K) (c : Key → K) : lieSer b e (fun k => a * c k) = a • lieSer b e c := by
  unfold lieSer
  rw [Finset.smul_sum]
  exact Finset.sum_congr rfl fun i _ => mul_smul _ _ _

theorem lieSer_zero (hb : IsHallTable b) {c : Key → K}
    (h : ∀ k, ValidKey (lieStart b) b.depth k → c k = 0) : lieSer b e c = 0 := by
  rw [lieSer_congr hb h]
  exact Finset.sum_eq_zero fun i _ => zero_smul _ _

theorem lieSer_single (hb : IsHallTable b) {k : Key} (hk : ValidKey (lieStart b) b.depth k) (x : K) :
    lieSer b e (fun j => if j = k then x else 0) = x • e k := by
  unfold lieSer
  rw [← sum_keys hb hk fun j => x • e j]
  refine Finset.sum_congr rfl fun i _ => ?_
  dsimp only
  by_cases h : keyAt b (i + 1) = k
  · rw [if_pos h, if_pos h.symm]
  · rw [if_neg h, if_neg fun h' => h h'.symm, zero_smul]

theorem lieSer_items (hb : IsHallTable b) {c : Key → K} {l : List (Key × K)}
    (hl : Items (ValidKey (lieStart b) b.depth) c l) :
    (l.map fun t => t.2 • e t.1).sum = lieSer b e c := by
  have h1 : ∀ t ∈ l, t.2 • e t.1 = ∑ i ∈ Finset.range (b.data.length - 1),
      if t.1 = keyAt b (i + 1) then t.2 • e (keyAt b (i + 1)) else 0 := fun t ht =>
    (sum_keys hb (hl.val t ht).1 fun k => t.2 • e k).symm
  rw [sum_map_congr h1, sum_map_finset]
  unfold lieSer
  refine Finset.sum_congr rfl fun i hi => ?_
  rw [Finset.mem_range] at hi
  exact hl.sum_single ((validKey_iff hb).2 ⟨i + 1, by omega, by omega, rfl⟩)
    (F := fun x => x • e (keyAt b (i + 1))) (zero_smul _ _)

end sums

/-- a loop that adds to the value of its state -/
theorem loop_add {ι S M : Type} [AddCommMonoid M] (inv : S → Prop) (val : S → M) (l : List ι)
    (body : S → ι → Option S) (F : ι → M)
    (h : ∀ x ∈ l, ∀ s, inv s → ∃ s', body s x = some s' ∧ inv s' ∧ val s' = val s + F x) :
    ∀ s, inv s → ∃ s', loop l s body = some s' ∧ inv s' ∧ val s' = val s + (l.map F).sum := by
  induction l with
  | nil => intro s hs; exact ⟨s, rfl, hs, by simp⟩
  | cons a l ih =>
    intro s hs
    obtain ⟨s1, h1, h2, h3⟩ := h a List.mem_cons_self s hs
    obtain ⟨s2, e1, e2, e3⟩ := ih (fun x hx => h x (List.mem_cons_of_mem _ hx)) s1 h2
    refine ⟨s2, ?_, e2, ?_⟩
    · rw [loop_cons, h1]; exact e1
    · rw [e3, h3, List.map_cons, List.sum_cons, add_assoc]

section product
variable [Field K] [DecidableEq K] {w : ℕ} {b : Lie.Basis} {e : Key → Series (Fin w) K}
  {V : VecOps K T} {coef : T → Key → K} {Good : ℕ → T → Prop} {strict : Prop}

theorem list_sum_apply {ι : Type*} (l : List ι) (F : ι → Series (Fin w) K) (u : List (Fin w)) :
    (l.map F).sum u = (l.map fun x => F x u).sum := by
  induction l with
  | nil => rfl
  | cons a l ih => rw [List.map_cons, List.sum_cons, List.map_cons, List.sum_cons, ← ih]; rfl

/-- `asp_helper` adds a multiple of a product -/
theorem asp_lie (hb : IsHallTable b)
    (hV : V.Graded (ValidKey (lieStart b) b.depth) coef Good b.depth strict) {p : Product} {d : ℕ}
    (hd : d ≤ b.depth) (hp : ∀ t ∈ p, ValidKey (lieStart b) b.depth t.1 ∧ t.1.deg ≤ d) (s : K)
    {out : T} (hout : Good d out) :
    ∃ r, aspHelper V out p s = some r ∧ Good d r ∧
      lieSer b e (coef r) = lieSer b e (coef out) + s • Product.value e p := by
  obtain ⟨r, h1, h2, h3⟩ := loop_add (Good d) (fun v => lieSer b e (coef v)) p
    (fun out t => V.modify out t.1 fun x => x + (t.2 : K) * s)
    (fun t => ((t.2 : K) * s) • e t.1)
    (fun t ht v hv => by
      obtain ⟨hk, hkd⟩ := hp t ht
      obtain ⟨v', e1, -, e3⟩ := hV.lawful.modify v (hV.mono v d hd hv) t.1 hk
        fun x => x + (t.2 : K) * s
      refine ⟨v', e1, hV.modify v d hd hv t.1 hk hkd _ v' e1, ?_⟩
      rw [← lieSer_single hb hk, ← lieSer_add]
      refine lieSer_congr hb fun j hj => ?_
      rw [e3 j hj]
      by_cases hjk : j = t.1
      · rw [if_pos hjk, if_pos hjk, hjk]
      · rw [if_neg hjk, if_neg hjk, add_zero]) out hout
  refine ⟨r, h1, h2, ?_⟩
  rw [h3]
  congr 1
  clear h1 h2 h3 hp
  unfold Product.value
  induction p with
  | nil => simp
  | cons t p ih =>
    rw [List.map_cons, List.sum_cons, List.map_cons, List.sum_cons, ih, smul_add]
    congr 1
    funext u
    show (t.2 : K) * s * e t.1 u = s * ((t.2 • e t.1) u)
    rw [Lie.zsmul_apply]
    ring

/-- What the multiplication of keys must achieve. -/
def ProdSpec (w : ℕ) (b : Lie.Basis) (e : Key → Series (Fin w) K) (op : KeyOp) : Prop :=
  ∀ c l r, LieHistory w c → ValidKey (lieStart b) b.depth l → ValidKey (lieStart b) b.depth r →
    l.deg + r.deg ≤ b.depth → ∃ p c', op c l r = some (p, c') ∧ LieHistory w c' ∧
      (∀ t ∈ p, ValidKey (lieStart b) b.depth t.1 ∧ t.1.deg = l.deg + r.deg) ∧
      Product.value e p = ⁅e l, e r⁆

theorem eqUpTo_list_sum {ι : Type*} {D : ℕ} {l : List ι} {F G : ι → Series (Fin w) K}
    (h : ∀ x ∈ l, EqUpTo D (F x) (G x)) : EqUpTo D (l.map F).sum (l.map G).sum := by
  intro u hu
  rw [list_sum_apply, list_sum_apply]
  exact sum_map_congr fun x hx => h x hx u hu

theorem sum_smul_lie (l r : List (Key × K)) (a : K) :
    (l.map fun x => (r.map fun y => (a * (x.2 * y.2)) • ⁅e x.1, e y.1⁆).sum).sum =
      a • ⁅(l.map fun x => x.2 • e x.1).sum, (r.map fun y => y.2 • e y.1).sum⁆ := by
  have inner : ∀ x : Key × K, (r.map fun y => (a * (x.2 * y.2)) • ⁅e x.1, e y.1⁆).sum =
      a • ⁅x.2 • e x.1, (r.map fun y => y.2 • e y.1).sum⁆ := by
    intro x
    induction r with
    | nil => simp
    | cons y r ih =>
      rw [List.map_cons, List.sum_cons, List.map_cons, List.sum_cons, ih, lie_add, smul_add]
      congr 1
      rw [Ring.lie_def, Ring.lie_def, smul_mul_smul_comm, smul_mul_smul_comm, mul_comm y.2 x.2,
        ← smul_sub, smul_smul]
  induction l with
  | nil => simp
  | cons x l ih =>
    rw [List.map_cons, List.sum_cons, List.map_cons, List.sum_cons, ih, inner, add_lie, smul_add]

/-- The graded product adds a multiple of the bracket, up to the depth. -/
theorem lieFma_spec (hb : IsHallTable b) {A : LieOps K T} (hdep : A.depth = b.depth)
    (hV : A.toVecOps.Graded (ValidKey (lieStart b) b.depth) coef Good b.depth strict)
    (hom : ∀ k, ValidKey (lieStart b) b.depth k → Homog k.deg (e k)) (hprod : ProdSpec w b e A.prod)
    {fn : K → K} {a : K} (hfn : ∀ x, fn x = a * x) {out lhs rhs : T} {cache : LieCache} (m : ℕ)
    (hc : LieHistory w cache) (hl : Good b.depth lhs) (hr : Good b.depth rhs)
    (hout : Good (min b.depth (A.degree lhs + A.degree rhs)) out) :
    ∃ r c', A.fma cache out lhs rhs fn m = some (r, c') ∧ LieHistory w c' ∧
      Good (min b.depth (A.degree lhs + A.degree rhs)) r ∧
      EqUpTo b.depth (lieSer b e (coef r)) (lieSer b e (coef out) +
        a • ⁅lieSer b e (coef lhs), lieSer b e (coef rhs)⁆) := by
  obtain ⟨left, hleft, il⟩ := hV.items lhs hl
  obtain ⟨right, hright, ir⟩ := hV.items rhs hr
  unfold LieOps.fma
  rw [hright, hdep]
  simp only [Option.bind_eq_bind, Option.bind_some]
  rw [hleft]
  simp only [Option.bind_some]
  set D := min b.depth (A.degree lhs + A.degree rhs) with hD
  have hDb : D ≤ b.depth := by omega
  obtain ⟨o1, o2⟩ := hV.setDegree out D hDb hout
  obtain ⟨⟨r, c'⟩, h1, ⟨h2, h2'⟩, h3⟩ := loop_add
    (fun st : T × LieCache => Good D st.1 ∧ LieHistory w st.2)
    (fun st => lieSer b e (coef st.1)) left
    (fun (st : T × LieCache) l =>
      loop (if l.1.deg ≤ D then right.takeWhile (fun r => decide (r.1.deg ≤ D - l.1.deg)) else [])
        st fun (st : T × LieCache) (r : Key × K) =>
        (A.prod st.2 l.1 r.1).bind fun p =>
        (aspHelper A.toVecOps st.1 p.1 (fn (l.2 * r.2))).bind fun out => some (out, p.2))
    (fun l => ((if l.1.deg ≤ D then
        right.takeWhile (fun r => decide (r.1.deg ≤ D - l.1.deg)) else []).map
        fun r : Key × K => fn (l.2 * r.2) • ⁅e l.1, e r.1⁆).sum)
    (fun l hlm st hst => by
      refine loop_add (fun st : T × LieCache => Good D st.1 ∧ LieHistory w st.2)
        (fun st => lieSer b e (coef st.1)) _ _
        (fun r : Key × K => fn (l.2 * r.2) • ⁅e l.1, e r.1⁆) ?_ st hst
      rintro r hrm ⟨v, c⟩ ⟨hv, hc⟩
      have hmem : l.1.deg ≤ D ∧ r ∈ right ∧ r.1.deg ≤ D - l.1.deg := by
        by_cases hlD : l.1.deg ≤ D
        · rw [if_pos hlD] at hrm
          exact ⟨hlD, (List.takeWhile_sublist _).mem hrm,
            by simpa using List.mem_takeWhile_imp hrm⟩
        · rw [if_neg hlD] at hrm; simp at hrm
      obtain ⟨hlD, hrm, hrd⟩ := hmem
      obtain ⟨p, c1, p1, p2, p3, p4⟩ := hprod c l.1 r.1 hc (il.val l hlm).1 (ir.val r hrm).1
        (by omega)
      obtain ⟨v', q1, q2, q3⟩ := asp_lie (e := e) hb hV hDb (p := p)
        (fun t ht => ⟨(p3 t ht).1, by rw [(p3 t ht).2]; omega⟩) (fn (l.2 * r.2)) hv
      refine ⟨(v', c1), ?_, ⟨q2, p2⟩, ?_⟩
      · dsimp only
        rw [p1]
        simp only [Option.bind_some]
        rw [q1]
        rfl
      · rw [q3, p4]) (A.setDegree out D, cache) ⟨o1, hc⟩
  refine ⟨r, c', h1, h2', h2, ?_⟩
  dsimp only at h3
  rw [h3, lieSer_congr hb o2]
  refine EqUpTo.add (EqUpTo.refl _ _) ?_
  rw [← lieSer_items hb il, ← lieSer_items hb ir, ← sum_smul_lie]
  refine eqUpTo_list_sum fun l hlm => ?_
  have hpair : right.Pairwise fun a b =>
      decide (b.1.deg ≤ D - l.1.deg) = true → decide (a.1.deg ≤ D - l.1.deg) = true := by
    refine ir.sorted.imp fun {a b} hab hb => ?_
    have hb := of_decide_eq_true hb
    have hab' : a.1.deg ≤ b.1.deg := by
      rcases Key.lt_iff.1 hab with h | h
      · exact h.le
      · exact h.1.le
    exact decide_eq_true (by omega)
  -- the terms left out vanish up to the depth
  have hvan : ∀ x ∈ right, ¬ (l.1.deg ≤ D ∧ x.1.deg ≤ D - l.1.deg) →
      EqUpTo b.depth 0 ((a * (l.2 * x.2)) • ⁅e l.1, e x.1⁆) := by
    intro x hx hnot u hu
    show 0 = a * (l.2 * x.2) * ⁅e l.1, e x.1⁆ u
    by_cases hl0 : l.2 = 0
    · rw [hl0, zero_mul, mul_zero, zero_mul]
    by_cases hx0 : x.2 = 0
    · rw [hx0, mul_zero, mul_zero, zero_mul]
    have hld := hV.degree lhs hl l.1 (il.val l hlm).1 (by rw [← (il.val l hlm).2]; exact hl0)
    have hxd := hV.degree rhs hr x.1 (ir.val x hx).1 (by rw [← (ir.val x hx).2]; exact hx0)
    have hh : Homog (l.1.deg + x.1.deg) (e l.1 * e x.1 - e x.1 * e l.1) :=
      ((hom _ (il.val l hlm).1).mul (hom _ (ir.val x hx).1)).sub
        (Nat.add_comm x.1.deg l.1.deg ▸ (hom _ (ir.val x hx).1).mul (hom _ (il.val l hlm).1))
    rw [Ring.lie_def, hh u (by omega), mul_zero]
  by_cases hlD : l.1.deg ≤ D
  · rw [if_pos hlD, sum_takeWhile _ hpair]
    refine eqUpTo_list_sum fun x hx => ?_
    by_cases hxD : x.1.deg ≤ D - l.1.deg
    · rw [if_pos (decide_eq_true hxD), hfn]
      exact EqUpTo.refl _ _
    · rw [if_neg (by simpa using hxD)]
      exact hvan x hx fun h => hxD h.2
  · rw [if_neg hlD, List.map_nil, List.sum_nil]
    have : EqUpTo b.depth ((right.map fun _ : Key × K => (0 : Series (Fin w) K)).sum)
        ((right.map fun x : Key × K => (a * (l.2 * x.2)) • ⁅e l.1, e x.1⁆).sum) :=
      eqUpTo_list_sum fun x hx => hvan x hx fun h => hlD h.1
    rwa [sum_map_eq_zero fun _ _ => rfl] at this

end product

end RoughPy.Lite
