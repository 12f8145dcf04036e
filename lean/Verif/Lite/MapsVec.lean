import Verif.Lite.MapsLemmas
import Verif.Lite.AlgLemmas
import Verif.Lie.ApplyLemmas

set_option linter.unusedSectionVars false

/-! # The maps between Lie elements and tensors, on vectors -/

namespace RoughPy.Lite

open RoughPy.Tensor RoughPy.Tensor.Series
open RoughPy.Lie (IsHallTable HasDegree hallTable hallTable_isHall Homog sumWords_series)

attribute [local instance] LieRing.ofAssociativeRing

variable {K T : Type} [Field K] [DecidableEq K] {w : ℕ}

/-! ## Sums over words -/

theorem sumWords_list {ι M : Type*} [AddCommMonoid M] (n : ℕ) (l : List ι)
    (F : ι → List (Fin w) → M) :
    sumWords n (fun u => (l.map fun t => F t u).sum) = (l.map fun t => sumWords n (F t)).sum := by
  induction l with
  | nil => simp only [List.map_nil, List.sum_nil]; exact sumWords_zero n
  | cons t l ih =>
    simp only [List.map_cons, List.sum_cons]
    rw [sumWords_add_fun, ih]

theorem sumWords_single {M : Type*} [AddCommMonoid M] (v : List (Fin w)) (F : List (Fin w) → M) (n : ℕ) :
    sumWords n (fun u => if v = u then F u else 0) = if v.length = n then F v else 0 := by
  induction n generalizing v F with
  | zero =>
    rw [sumWords]
    cases v with
    | nil => simp
    | cons a v => simp
  | succ n ih =>
    rw [sumWords]
    cases v with
    | nil =>
      rw [if_neg (by simp)]
      refine Finset.sum_eq_zero fun a _ => ?_
      refine (sumWords_congr fun u _ => if_neg (by simp)).trans (sumWords_zero (α := Fin w) n)
    | cons b v =>
      rw [Finset.sum_eq_single b]
      · have : (fun u : List (Fin w) => if b :: v = b :: u then F (b :: u) else 0) =
            fun u => if v = u then F (b :: u) else 0 := by
          funext u
          exact if_congr (by simp) rfl rfl
        rw [this, ih v fun u => F (b :: u)]
        exact if_congr (by simp) rfl rfl
      · intro a _ hne
        refine (sumWords_congr fun u _ => ?_).trans (sumWords_zero (α := Fin w) n)
        exact if_neg fun h => hne (List.cons.inj h).1.symm
      · intro h; exact absurd (Finset.mem_univ b) h

/-- sums over the entries of a tensor are sums over words -/
theorem items_sumWords {M : Type*} [AddCommMonoid M] {D : ℕ} {c : Key → K} {l : List (Key × K)}
    (hl : Items (ValidKey (wordsBelow w) D) c l) (G : Key → K → M) (h0 : ∀ k, G k 0 = 0) :
    (l.map fun t => G t.1 t.2).sum =
      ∑ n ∈ Finset.range (D + 1), sumWords n fun u : List (Fin w) => G (wordKey u) (c (wordKey u)) := by
  have h1 : ∀ t ∈ l, G t.1 t.2 = ∑ n ∈ Finset.range (D + 1),
      sumWords n fun u : List (Fin w) => if t.1 = wordKey u then G (wordKey u) t.2 else 0 := by
    intro t ht
    obtain ⟨v, hv, hvt⟩ := exists_wordKey (hl.val t ht).1
    have : ∀ n, (sumWords n fun u : List (Fin w) => if t.1 = wordKey u then G (wordKey u) t.2 else 0) =
        if v.length = n then G (wordKey v) t.2 else 0 := by
      intro n
      rw [← sumWords_single v (fun u => G (wordKey u) t.2) n]
      refine sumWords_congr fun u _ => ?_
      rw [← hvt]
      exact if_congr ⟨fun h => wordKey_inj h, fun h => h ▸ rfl⟩ rfl rfl
    rw [Finset.sum_congr rfl fun n _ => this n, Finset.sum_ite_eq, if_pos (Finset.mem_range.2 (by omega)),
      hvt]
  rw [sum_map_congr h1, sum_map_finset]
  refine Finset.sum_congr rfl fun n hn => ?_
  rw [← sumWords_list n l fun t u => if t.1 = wordKey u then G (wordKey u) t.2 else 0]
  refine sumWords_congr fun u hu => ?_
  rw [Finset.mem_range] at hn
  exact hl.sum_single (wordKey_valid (by omega)) (F := fun x => G (wordKey u) x) (h0 _)

/-! ## Loops that add to the value of a vector, up to a degree -/

theorem loop_eqUpTo {ι S : Type} {D : ℕ} (inv : S → Prop) (val : S → Series (Fin w) K) (l : List ι)
    (body : S → ι → Option S) (F : ι → Series (Fin w) K)
    (h : ∀ x ∈ l, ∀ s, inv s → ∃ s', body s x = some s' ∧ inv s' ∧ EqUpTo D (val s') (val s + F x)) :
    ∀ s, inv s → ∃ s', loop l s body = some s' ∧ inv s' ∧ EqUpTo D (val s') (val s + (l.map F).sum) := by
  induction l with
  | nil => intro s hs; exact ⟨s, rfl, hs, by rw [List.map_nil, List.sum_nil, add_zero]; exact EqUpTo.refl _ _⟩
  | cons a l ih =>
    intro s hs
    obtain ⟨s1, h1, h2, h3⟩ := h a List.mem_cons_self s hs
    obtain ⟨s2, e1, e2, e3⟩ := ih (fun x hx => h x (List.mem_cons_of_mem _ hx)) s1 h2
    refine ⟨s2, ?_, e2, ?_⟩
    · rw [loop_cons, h1]; exact e1
    · rw [List.map_cons, List.sum_cons, ← add_assoc]
      exact e3.trans (h3.add (EqUpTo.refl _ _))

section toTensor
variable {A : AlgOps K T} {ser : T → Series (Fin w) K} {Good Tight Full : T → Prop}

/-- `asp_helper` on a tensor adds a multiple of a product -/
theorem asp_tensor (hA : A.LawfulTensor w ser Good Tight Full) {p : Product} {n : ℕ} (hn : n ≤ A.depth)
    (hp : WordKeys w n p) (s : K) {out : T} (hout : Tight out) :
    ∃ r, aspHelper A.toVecOps out p s = some r ∧ Tight r ∧
      EqUpTo A.depth (ser r) (ser out + s • Product.value (tser K w) p) := by
  obtain ⟨r, h1, h2, h3⟩ := loop_eqUpTo (D := A.depth) Tight ser p
    (fun out t => A.modify out t.1 fun x => x + (t.2 : K) * s)
    (fun t => ((t.2 : K) * s) • tser K w t.1)
    (fun t ht v hv => by
      obtain ⟨u, hu, hut⟩ := hp t ht
      obtain ⟨v', e1, e2, e3⟩ := hA.modify v (hA.good v hv) u (by omega) fun x => x + (t.2 : K) * s
      rw [← hut]
      refine ⟨v', e1, hA.tight v' e2, fun z hz => ?_⟩
      rw [e3 z hz, Series.add_apply, Series.smul_apply, tser_wordKey]
      unfold word
      by_cases hzu : z = u
      · rw [if_pos hzu, if_pos hzu, mul_one, hzu]
      · rw [if_neg hzu, if_neg hzu, mul_zero, add_zero]) out hout
  refine ⟨r, h1, h2, ?_⟩
  have : (p.map fun t => ((t.2 : K) * s) • tser K w t.1).sum = s • Product.value (tser K w) p := by
    clear h1 h2 h3 hp
    unfold Product.value
    induction p with
    | nil => simp
    | cons t p ih =>
      rw [List.map_cons, List.sum_cons, ih, List.map_cons, List.sum_cons, smul_add, mul_comm, mul_smul,
        Int.cast_smul_eq_zsmul]
  rw [← this]
  exact h3

variable {m : ℕ} {hs : HallSet} {e : Key → Series (Fin w) K}

theorem lieToTensor_spec (hA : A.LawfulTensor w ser Good Tight Full) (hdep : A.depth = m + 1)
    (hnew : HallSet.new w (m + 1) = some hs) (hr : Rep (hallTable w m) hs) (he : HallElems hs e)
    {fuel : ℕ} (hf : m + 1 ≤ fuel) {argDepth : ℕ} {l : List (Key × K)}
    (hl : ∀ t ∈ l, HallKey w t.1 ∧ t.1.deg ≤ argDepth) {st : MapsState}
    (hst : MapsHistory w (m + 1) hs st) :
    ∃ r st', lieToTensor w (m + 1) hs fuel A.toVecOps st argDepth l = some (r, st') ∧
      MapsHistory w (m + 1) hs st' ∧ Tight r ∧
      EqUpTo (m + 1) (ser r) (l.map fun t => if t.1.deg ≤ m + 1 then t.2 • e t.1 else 0).sum := by
  have hinner : ∀ t ∈ l, ∀ s : T × MapsState, (Tight s.1 ∧ MapsHistory w (m + 1) hs s.2) →
      ∃ s', (if argDepth ≤ m + 1 ∨ t.1.deg ≤ m + 1 then do
          let x ← expand w (m + 1) hs fuel s.2.expanded t.1
          let out ← aspHelper A.toVecOps s.1 x.1 t.2
          some (out, { s.2 with expanded := x.2 })
        else some s) = some s' ∧ (Tight s'.1 ∧ MapsHistory w (m + 1) hs s'.2) ∧
        EqUpTo (m + 1) (ser s'.1) (ser s.1 + if t.1.deg ≤ m + 1 then t.2 • e t.1 else 0) := by
    intro t ht s hi
    obtain ⟨hk, hkd⟩ := hl t ht
    by_cases hd : t.1.deg ≤ m + 1
    · rw [if_pos (Or.inr hd), if_pos hd]
      obtain ⟨ok, -, -⟩ := hi.2.ok hnew hr he
      obtain ⟨x, hx⟩ := expand_total hr he fuel s.2.expanded t.1 hk hd (by omega) ok
      have hE := (expand_ok hr he fuel s.2.expanded t.1 x.1 x.2 hx ok).2 hk hd
      obtain ⟨r, r1, r2, r3⟩ := asp_tensor hA (by omega) hE.keys t.2 hi.1
      rw [hx]
      simp only [Option.bind_eq_bind, Option.bind_some]
      rw [r1]
      refine ⟨_, rfl, ⟨r2, MapsHistory.expand hi.2 hx⟩, ?_⟩
      rw [hdep, hE.value] at r3
      exact r3
    · rw [if_neg (by omega), if_neg hd, add_zero]
      exact ⟨s, rfl, hi, EqUpTo.refl _ _⟩
  obtain ⟨s', h1, h2, h3⟩ := loop_eqUpTo (D := m + 1)
    (fun s : T × MapsState => Tight s.1 ∧ MapsHistory w (m + 1) hs s.2) (fun s => ser s.1) l
    (fun (s : T × MapsState) t => if argDepth ≤ m + 1 ∨ t.1.deg ≤ m + 1 then do
          let x ← expand w (m + 1) hs fuel s.2.expanded t.1
          let out ← aspHelper A.toVecOps s.1 x.1 t.2
          some (out, { s.2 with expanded := x.2 })
        else some s)
    (fun t => if t.1.deg ≤ m + 1 then t.2 • e t.1 else 0) hinner (A.new, st) ⟨hA.new_tight, hst⟩
  refine ⟨s'.1, s'.2, h1, h2.2, h2.1, h3.trans ?_⟩
  have hz := hA.new_ser
  rw [hdep] at hz
  have := hz.add (EqUpTo.refl (m + 1) (l.map fun t => if t.1.deg ≤ m + 1 then t.2 • e t.1 else 0).sum)
  rwa [zero_add] at this

end toTensor

section toLie
variable {V : VecOps K T} {coef : T → Key → K} {Good : ℕ → T → Prop} {strict : Prop}
  {m : ℕ} {hs : HallSet} {e : Key → Series (Fin w) K}

/-- the bracketing of the word of a key -/
noncomputable def rbKey (K : Type) [CommRing K] (w : ℕ) (k : Key) : Series (Fin w) K :=
  open Classical in if h : ∃ u : List (Fin w), wordKey u = k then rb K h.choose else 0

theorem rbKey_wordKey (u : List (Fin w)) : rbKey K w (wordKey u) = rb K u := by
  have h : ∃ v : List (Fin w), wordKey v = wordKey u := ⟨u, rfl⟩
  unfold rbKey
  rw [dif_pos h]
  congr 1
  exact wordKey_inj h.choose_spec

theorem tensorToLie_loop
    (hV : V.Graded (ValidKey (lieStart (hallTable w m)) (m + 1)) coef Good (m + 1) strict)
    (hnew : HallSet.new w (m + 1) = some hs) (hr : Rep (hallTable w m) hs) (he : HallElems hs e)
    {fuel : ℕ} (hf : m + 1 ≤ fuel)
    (htot : ∀ c l r, LieHistory w c → HallKey w l → HallKey w r → l.deg + r.deg ≤ m + 1 →
      ∃ out, lieProd hs (m + 1) fuel c l r = some out) {argDepth : ℕ} {l : List (Key × K)}
    (hl : ∀ t ∈ l, ∃ u : List (Fin w), u.length ≤ argDepth ∧ wordKey u = t.1) {st : MapsState}
    (hst : MapsHistory w (m + 1) hs st) :
    ∃ r st', tensorToLie w (m + 1) hs fuel V st argDepth l = some (r, st') ∧
      MapsHistory w (m + 1) hs st' ∧ Good (m + 1) r ∧
      lieSer (hallTable w m) e (coef r) =
        (l.map fun t => if t.1.deg ≤ m + 1 then (t.2 / (t.1.deg : K)) • rbKey K w t.1 else 0).sum := by
  have hb := hallTable_isHall w m
  have hinner : ∀ t ∈ l, ∀ s : T × MapsState, (Good (m + 1) s.1 ∧ MapsHistory w (m + 1) hs s.2) →
      ∃ s', (if 0 < t.1.deg ∧ (argDepth ≤ m + 1 ∨ t.1.deg ≤ m + 1) then do
          let x ← rbracketing w (m + 1) hs (lieProd hs (m + 1) fuel) fuel (s.2.bracketed, s.2.lie) t.1
          let out ← aspHelper V s.1 x.1 (t.2 / (t.1.deg : K))
          some (out, { s.2 with bracketed := x.2.1, lie := x.2.2 })
        else some s) = some s' ∧ (Good (m + 1) s'.1 ∧ MapsHistory w (m + 1) hs s'.2) ∧
        lieSer (hallTable w m) e (coef s'.1) = lieSer (hallTable w m) e (coef s.1) +
          if t.1.deg ≤ m + 1 then (t.2 / (t.1.deg : K)) • rbKey K w t.1 else 0 := by
    intro t ht s hi
    obtain ⟨u, hu, hut⟩ := hl t ht
    have hdeg : t.1.deg = u.length := by rw [← hut]; rfl
    by_cases hpos : 0 < t.1.deg
    · by_cases hd : t.1.deg ≤ m + 1
      · rw [if_pos ⟨hpos, Or.inr hd⟩, if_pos hd]
        have hne : u ≠ [] := List.ne_nil_of_length_pos (by omega)
        obtain ⟨-, ok, hlie⟩ := hi.2.ok hnew hr he
        obtain ⟨x, hx⟩ := rbracketing_total hnew hr he htot fuel (s.2.bracketed, s.2.lie) u hne
          (by omega) (by omega) hlie ok
        have hB := (rbracketing_ok hnew hr he fuel fuel (s.2.bracketed, s.2.lie) _ x.1 x.2 hx hlie
          ok).2.2 u rfl hne (by omega)
        obtain ⟨r, r1, r2, r3⟩ := asp_lie (e := e) (b := hallTable w m) hb hV (d := m + 1) le_rfl
          (p := x.1) (fun s hs' => by
            obtain ⟨q1, q2⟩ := hB.keys s hs'
            exact ⟨hallKey_iff.2 ⟨q1, by omega⟩, by omega⟩) (t.2 / (t.1.deg : K)) hi.1
        rw [← hut, hx]
        simp only [Option.bind_eq_bind, Option.bind_some]
        rw [hut, r1]
        refine ⟨_, rfl, ⟨r2, MapsHistory.bracket hi.2 hx⟩, ?_⟩
        rw [r3, hB.value, ← hut, rbKey_wordKey]
      · rw [if_neg (by omega), if_neg hd, add_zero]
        exact ⟨s, rfl, hi, rfl⟩
    · rw [if_neg (by omega), if_pos (by omega)]
      refine ⟨s, rfl, hi, ?_⟩
      have : t.1.deg = 0 := by omega
      rw [this, Nat.cast_zero, div_zero, zero_smul, add_zero]
  obtain ⟨s', h1, h2, h3⟩ := loop_add
    (fun s : T × MapsState => Good (m + 1) s.1 ∧ MapsHistory w (m + 1) hs s.2)
    (fun s => lieSer (hallTable w m) e (coef s.1)) l
    (fun (s : T × MapsState) t => if 0 < t.1.deg ∧ (argDepth ≤ m + 1 ∨ t.1.deg ≤ m + 1) then do
          let x ← rbracketing w (m + 1) hs (lieProd hs (m + 1) fuel) fuel (s.2.bracketed, s.2.lie) t.1
          let out ← aspHelper V s.1 x.1 (t.2 / (t.1.deg : K))
          some (out, { s.2 with bracketed := x.2.1, lie := x.2.2 })
        else some s)
    (fun t => if t.1.deg ≤ m + 1 then (t.2 / (t.1.deg : K)) • rbKey K w t.1 else 0) hinner (V.new, st)
    ⟨hV.new_good _ le_rfl, hst⟩
  refine ⟨s'.1, s'.2, h1, h2.2, h2.1, ?_⟩
  rw [h3, lieSer_zero hb hV.lawful.new_coef, zero_add]

end toLie

end RoughPy.Lite
