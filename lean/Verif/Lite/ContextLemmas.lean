import Verif.Lite.ContextSpec
import Verif.Lite.MapsVec
import Verif.Lite.TensorProps

set_option linter.unusedSectionVars false

/-! # Lemmas on the context: the two kinds of vectors, maps, construction -/

namespace RoughPy.Lite

open RoughPy.Tensor RoughPy.Tensor.Series
open RoughPy.Lie (IsHallTable HasDegree hallTable hallTable_isHall Homog)

attribute [local instance] LieRing.ofAssociativeRing

variable {K T : Type}

/-! ## Contexts -/

/-- what the constructor makes -/
structure LiteCtx.Ok (c : LiteCtx) (w m : ℕ) : Prop where
  width : c.width = w
  depth : c.depth = m + 1
  hall : HallSet.new w (m + 1) = some c.hs
  rep : Rep (hallTable w m) c.hs
  basis : c.lieBasis = c.hs.basis (m + 1) ((hallTable w m).start (m + 2) - 1)

theorem LiteCtx.ok_new {w m : ℕ} {c : LiteCtx} (h : LiteCtx.new w (m + 1) = some c) : c.Ok w m := by
  obtain ⟨hs, h1, hr, h2⟩ := hallBasis_eq w m
  unfold LiteCtx.new at h
  rw [h2] at h
  simp only [Option.bind_eq_bind, Option.bind_some, Option.some.injEq] at h
  subst h
  exact ⟨rfl, rfl, h1, hr, rfl⟩

theorem LiteCtx.new_some (w m : ℕ) : ∃ c, LiteCtx.new w (m + 1) = some c := by
  obtain ⟨hs, h1, hr, h2⟩ := hallBasis_eq w m
  exact ⟨_, by unfold LiteCtx.new; rw [h2]; rfl⟩

/-- enough fuel for a context -/
structure LiteCtx.Fuel (c : LiteCtx) (w m fuel : ℕ) : Prop where
  le : m + 1 ≤ fuel
  total : ∀ cache l r, LieHistory w cache → HallKey w l → HallKey w r → l.deg + r.deg ≤ m + 1 →
    ∃ out, lieProd c.hs (m + 1) fuel cache l r = some out

theorem LiteCtx.Ok.fuel {c : LiteCtx} {w m : ℕ} (hc : c.Ok w m) : ∃ n₀, ∀ fuel ≥ n₀, c.Fuel w m fuel := by
  obtain ⟨n₀, h⟩ := lieProd_total_all (D := m + 1) (hallRep_new hc.hall) le_rfl
  have he := hallElems_exists (K := ℚ) hc.rep
  have hB := he.bracketUpTo hc.rep
  exact ⟨max n₀ (m + 1), fun fuel hf => ⟨by omega, fun cache l r hh hl hr hd =>
    h fuel (by omega) _ _ hB cache l r (cacheOK_of_history hB hh) hl hr hd⟩⟩

/-! ## Kinds of vectors -/

variable [Field K] [DecidableEq K]

/-- The facts about the vectors of one storage type. -/
structure Kind.Lawful (k : Kind K T) (w m : ℕ) (ser : T → Series (Fin w) K)
    (Good Tight Full : T → Prop) (coef : T → Key → K) (LGood : ℕ → T → Prop) (strict : Prop) :
    Prop where
  tensor : k.tensor.LawfulTensor w ser Good Tight Full
  depth : k.tensor.depth = m + 1
  items : ∀ v, Good v → ∃ l cf, k.tensor.items v = some l ∧
    Items (ValidKey (wordsBelow w) (m + 1)) cf l ∧
    ∀ u : List (Fin w), u.length ≤ m + 1 → cf (wordKey u) = ser v u
  lie : k.lie.Graded (ValidKey (lieStart (hallTable w m)) (m + 1)) coef LGood (m + 1) strict

theorem sparseKind_lawful {c : LiteCtx} {w m : ℕ} (hc : c.Ok w m) :
    (c.sparseKind : Kind K (Sparse K)).Lawful w m (Sparse.ser w) (Sparse.Tensor w (m + 1))
      (Sparse.Tensor w (m + 1)) (Sparse.Tensor w (m + 1)) Sparse.read
      (Sparse.GoodDeg (ValidKey (lieStart (hallTable w m)) (m + 1))) True where
  tensor := by
    unfold LiteCtx.sparseKind
    rw [hc.width, hc.depth]
    exact sparseTensor_lawful w (m + 1)
  depth := hc.depth
  items := fun v hv => ⟨v, Sparse.read v, rfl, Sparse.items_of_goodOn hv, fun _ _ => rfl⟩
  lie := Sparse.graded fun k hk => hk.1

theorem start_pos {w m : ℕ} (hw : 0 < w) : 0 < lieStart (hallTable w m) (m + 1 + 1) := by
  have hb := hallTable_isHall w m
  obtain ⟨-, h2⟩ : ValidKey (lieStart (hallTable w m)) (m + 1) ⟨1, 0⟩ :=
    (validKey_iff hb).2 ⟨1, by omega, (hb.letter_iff.2 ⟨le_rfl, hw⟩).lt hb,
      (keyAt_letter hb le_rfl hw).symm⟩
  have := lieStart_mono hb (show 1 + 1 ≤ m + 1 + 1 by omega)
  dsimp only at h2
  omega

theorem denseKind_lawful {c : LiteCtx} {w m : ℕ} (hw : 0 < w) (hc : c.Ok w m) :
    (c.denseKind : Kind K (Dense K)).Lawful w m (Dense.ser w) (Dense.Whole w (m + 1))
      (Dense.Tight w (m + 1)) (Dense.Full w (m + 1)) (Dense.coef (lieStart (hallTable w m)))
      (Dense.GoodDeg (lieStart (hallTable w m))) False where
  tensor := by
    unfold LiteCtx.denseKind
    rw [hc.width, hc.depth]
    exact denseTensor_lawful w (by omega)
  depth := hc.depth
  items := fun v hv => by
    obtain ⟨l, h1, h2, h3, h4⟩ := Dense.items_coef (K := K) (tensorBasis_lawful w (m + 1))
      (by show 0 < wordsBelow w (m + 1 + 1); rw [wordsBelow_succ']; omega) hv.length_le
    refine ⟨l, Dense.coef (wordsBelow w) v, ?_, ⟨h2, h3, h4⟩, fun _ _ => rfl⟩
    show Dense.items (tensorBasis c.width c.depth) v = some l
    rw [hc.width, hc.depth]
    exact h1
  lie := by
    unfold LiteCtx.denseKind
    rw [hc.basis]
    exact Dense.graded (hallBasis_lawful (hallTable_isHall w m) hc.rep) (start_pos hw)

/-! ## The maps -/

section maps
variable {w m : ℕ} {k : Kind K T} {ser : T → Series (Fin w) K} {Good Tight Full : T → Prop}
  {coef : T → Key → K} {LGood : ℕ → T → Prop} {strict : Prop} {c : LiteCtx}
  {e : Key → Series (Fin w) K} {fuel : ℕ} {st : MapsState}

theorem lieToTensorImpl_spec (hk : k.Lawful w m ser Good Tight Full coef LGood strict)
    (hc : c.Ok w m) (he : HallElems c.hs e) (hf : c.Fuel w m fuel)
    (hst : MapsHistory w (m + 1) c.hs st) {x : T} (hx : LGood (m + 1) x) :
    ∃ r st', c.lieToTensorImpl fuel k st x = some (r, st') ∧ MapsHistory w (m + 1) c.hs st' ∧
      Tight r ∧ EqUpTo (m + 1) (ser r) (lieSer (hallTable w m) e (coef x)) := by
  have hb := hallTable_isHall w m
  obtain ⟨l, h1, hI⟩ := hk.lie.items x hx
  obtain ⟨r, st', h2, h3, h4, h5⟩ := lieToTensor_spec (argDepth := m + 1) hk.tensor hk.depth hc.hall
    hc.rep he hf.le (fun t ht => hallKey_iff.1 (hI.val t ht).1) hst
  refine ⟨r, st', ?_, h3, h4, ?_⟩
  · unfold LiteCtx.lieToTensorImpl
    rw [h1, hc.width, hc.depth]
    exact h2
  · refine h5.trans ?_
    rw [← lieSer_items hb hI]
    have : (l.map fun t => if t.1.deg ≤ m + 1 then t.2 • e t.1 else 0) = l.map fun t => t.2 • e t.1 :=
      List.map_congr_left fun t ht => if_pos (hallKey_iff.1 (hI.val t ht).1).2
    rw [this]
    exact EqUpTo.refl _ _

theorem tensorToLieImpl_spec (hk : k.Lawful w m ser Good Tight Full coef LGood strict)
    (hc : c.Ok w m) (he : HallElems c.hs e) (hf : c.Fuel w m fuel)
    (hst : MapsHistory w (m + 1) c.hs st) {x : T} (hx : Good x) :
    ∃ r st', c.tensorToLieImpl fuel k st x = some (r, st') ∧ MapsHistory w (m + 1) c.hs st' ∧
      LGood (m + 1) r ∧ lieSer (hallTable w m) e (coef r) = dynkinUpTo K (m + 1) (ser x) := by
  obtain ⟨l, cf, h1, hI, hcf⟩ := hk.items x hx
  obtain ⟨r, st', h2, h3, h4, h5⟩ := tensorToLie_loop (argDepth := m + 1) hk.lie hc.hall hc.rep he
    hf.le hf.total (fun t ht => exists_wordKey (hI.val t ht).1) hst
  refine ⟨r, st', ?_, h3, h4, ?_⟩
  · unfold LiteCtx.tensorToLieImpl
    rw [h1, hc.width, hc.depth]
    exact h2
  · rw [h5, items_sumWords hI (fun k x => if k.deg ≤ m + 1 then (x / (k.deg : K)) • rbKey K w k else 0)
      (fun k => by simp)]
    unfold dynkinUpTo
    refine Finset.sum_congr rfl fun n hn => ?_
    rw [Finset.mem_range] at hn
    refine sumWords_congr fun u hu => ?_
    have hd : (wordKey u).deg = n := hu
    rw [hd, if_pos (by omega), rbKey_wordKey, hcf u (by omega)]

end maps

/-! ## Construction -/

theorem foldl_lastValue (l : List (ℕ × K)) (i : ℕ) (x : K) (h : ∀ t ∈ l, t.1 ≠ i) :
    l.foldl (fun x t => if t.1 = i then t.2 else x) x = x := by
  induction l generalizing x with
  | nil => rfl
  | cons t l ih =>
    rw [List.foldl_cons, if_neg (h t List.mem_cons_self)]
    exact ih _ fun s hs' => h s (List.mem_cons_of_mem _ hs')

theorem lastValue_of_not_mem {l : List (ℕ × K)} {i : ℕ} (h : ∀ t ∈ l, t.1 ≠ i) : lastValue l i = 0 :=
  foldl_lastValue l i 0 h

theorem lastValue_of_mem {l : List (ℕ × K)} {i : ℕ} {x : K} (hl : (l.map (·.1)).Nodup) (h : (i, x) ∈ l) :
    lastValue l i = x := by
  unfold lastValue
  generalize (0 : K) = y
  induction l generalizing y with
  | nil => cases h
  | cons t l ih =>
    rw [List.map_cons, List.nodup_cons] at hl
    rw [List.foldl_cons]
    rcases List.mem_cons.1 h with rfl | h
    · rw [if_pos rfl]
      exact foldl_lastValue _ _ _ fun s hs' hsi => hl.1 (List.mem_map.2 ⟨s, hs', hsi⟩)
    · exact ih hl.2 h _

section construct
variable {ι : Type} [DecidableEq ι] {V : VecOps K T} {B : Basis} {P : ι → Prop} {κ : ι → Key}
  {idx : ι → ℕ} {val : T → ι → K} {inv : T → Prop}

theorem constructImpl_spec (hidx : ∀ p, P p → B.indexToKey (idx p) = some (κ p))
    (hinj : ∀ p q, P p → P q → idx p = idx q → p = q)
    (hmod : ∀ v, inv v → ∀ p, P p → ∀ x, ∃ v', V.modify v (κ p) (fun _ => x) = some v' ∧ inv v' ∧
      ∀ q, P q → val v' q = if q = p then x else val v q)
    (hnew : inv V.new) (h0 : ∀ p, P p → val V.new p = 0) {data : KeyScalars K}
    (hlen : ∀ keys, data.keys = some keys → keys.length = data.vals.length)
    (hent : ∀ t ∈ data.entries.take B.maxDim, ∃ p, P p ∧ idx p = t.1) :
    ∃ r, constructImpl V B data = some r ∧ inv r ∧
      ∀ p, P p → val r p = lastValue (data.entries.take B.maxDim) (idx p) := by
  have hL : data.entries.length = data.vals.length := by
    unfold KeyScalars.entries
    split
    · rename_i keys h
      rw [List.length_zip, hlen keys h, Nat.min_self]
    · rw [List.length_zip, List.length_range, Nat.min_self]
  have hget : ∀ i, i < data.vals.length → ∃ t, data.entries[i]? = some t ∧
      data.index i = some t.1 ∧
      data.vals[i]? = some t.2 := by
    intro i hi
    unfold KeyScalars.entries KeyScalars.index
    rcases h : data.keys with _ | keys
    rotate_left
    · have h1 := hlen keys h
      refine ⟨(keys[i]'(by omega), data.vals[i]), ?_, ?_, ?_⟩
      · rw [List.getElem?_eq_getElem (by rw [List.length_zip]; omega), List.getElem_zip]
      · exact List.getElem?_eq_getElem (by omega)
      · exact List.getElem?_eq_getElem hi
    · refine ⟨(i, data.vals[i]), ?_, rfl, ?_⟩
      · rw [List.getElem?_eq_getElem (by rw [List.length_zip, List.length_range]; omega), List.getElem_zip,
          List.getElem_range]
      · exact List.getElem?_eq_getElem hi
  have key : ∀ n, n ≤ min data.vals.length B.maxDim → ∃ r,
      loop (List.range n) V.new (fun result i => do
        let index ← data.index i
        let k ← B.indexToKey index
        let x ← data.vals[i]?
        V.modify result k fun _ => x) = some r ∧ inv r ∧
      ∀ p, P p → val r p = lastValue (data.entries.take n) (idx p) := by
    intro n
    induction n with
    | zero => intro _; exact ⟨V.new, rfl, hnew, fun p hp => h0 p hp⟩
    | succ n ih =>
      intro hn
      obtain ⟨r, h1, h2, h3⟩ := ih (by omega)
      obtain ⟨t, t1, t2, t3⟩ := hget n (by omega)
      have htm : t ∈ data.entries.take B.maxDim := by
        rw [List.mem_take_iff_getElem]
        obtain ⟨q1, q2⟩ := List.getElem?_eq_some_iff.1 t1
        exact ⟨n, by omega, q2⟩
      obtain ⟨p, hp, hpt⟩ := hent t htm
      obtain ⟨v', e1, e2, e3⟩ := hmod r h2 p hp t.2
      refine ⟨v', ?_, e2, fun q hq => ?_⟩
      · rw [List.range_succ, RoughPy.Lie.loop_append_list, h1]
        simp only [Option.bind_some]
        rw [Tensor.loop_cons, t2]
        simp only [Option.bind_eq_bind, Option.bind_some]
        rw [← hpt, hidx p hp]
        simp only [Option.bind_some]
        rw [t3]
        simp only [Option.bind_some]
        rw [e1]
        rfl
      · rw [e3 q hq, h3 q hq, List.take_add_one, t1, Option.toList_some]
        unfold lastValue
        rw [List.foldl_append, List.foldl_cons, List.foldl_nil]
        exact if_congr ⟨fun h => by rw [h, hpt], fun h => hinj q p hq hp (by rw [← h, hpt])⟩ rfl rfl
  obtain ⟨r, h1, h2, h3⟩ := key _ le_rfl
  refine ⟨r, h1, h2, fun p hp => ?_⟩
  rw [h3 p hp]
  congr 1
  by_cases hle : data.vals.length ≤ B.maxDim
  · rw [Nat.min_eq_left hle, List.take_of_length_le (by omega), List.take_of_length_le (by omega)]
  · rw [Nat.min_eq_right (by omega)]

end construct

end RoughPy.Lite
