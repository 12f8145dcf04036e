import Verif.Lite.DenseLemmas
import Mathlib.Data.Nat.Cast.Field

set_option linter.unusedSectionVars false

/-! # Sequences of vector operations refine operations on coefficients -/

namespace RoughPy.Lite

variable {K T : Type} [Field K] [DecidableEq K]

/-- the variables `s` hold vectors with coefficients `f` -/
def Represents (P : Key → Prop) (coef : T → Key → K) (Good : T → Prop) (s : ℕ → T)
    (f : ℕ → Coeffs K) : Prop :=
  ∀ i, Good (s i) ∧ ∀ k, P k → coef (s i) k = f i k

section
variable {P : Key → Prop} {coef : T → Key → K} {Good : T → Prop} {strict : Prop}
  {V : VecOps K T} {s : ℕ → T} {f : ℕ → Coeffs K}

theorem Represents.update (h : Represents P coef Good s f) (dst : ℕ) {v : T} {g : Coeffs K}
    (hv : Good v) (hg : ∀ k, P k → coef v k = g k) :
    Represents P coef Good (Function.update s dst v) (Function.update f dst g) := by
  intro i
  by_cases hi : i = dst
  · subst hi; rw [Function.update_self, Function.update_self]; exact ⟨hv, hg⟩
  · rw [Function.update_of_ne hi, Function.update_of_ne hi]; exact h i

theorem inplaceStep_spec (hV : V.Lawful P coef Good strict) (h : Represents P coef Good s f)
    (op : K → K → K) (h0 : ∀ l, op l 0 = l) (a b : ℕ)
    (h1 : strict → a ≠ b → ∀ r, r ≠ 0 → op 0 r ≠ 0)
    (h2 : strict → a = b → ∀ r, r ≠ 0 → op r r ≠ 0) :
    ∃ s', inplaceStep V s op a b = some s' ∧
      Represents P coef Good s' (Function.update f a fun j => op (f a j) (f b j)) := by
  unfold inplaceStep
  by_cases hab : a = b
  · subst hab
    obtain ⟨v, e1, e2, e3⟩ := hV.binarySelf _ (h a).1 op h0 fun hs => h2 hs rfl
    rw [if_pos rfl, e1]
    exact ⟨_, rfl, h.update a e2 fun k hk => by rw [e3 k hk, (h a).2 k hk]⟩
  · rw [if_neg hab]
    obtain ⟨e2, e3⟩ := hV.binaryInplace _ _ (h a).1 (h b).1 op h0 fun hs => h1 hs hab
    exact ⟨_, rfl, h.update a e2 fun k hk => by
      rw [e3 k hk, (h a).2 k hk, (h b).2 k hk]⟩

theorem step_spec [CharZero K] (hV : V.Lawful P coef Good strict)
    (h : Represents P coef Good s f) (act : Act K) (hk : act.KeyIn P) (hd : act.Divides)
    (hs : strict → act.NoAlias ∧ act.NonzeroScale) :
    ∃ s', step V s act = some s' ∧ Represents P coef Good s' (Coeffs.step f act) := by
  have hun : ∀ (dst a : ℕ) (g : K → K), g 0 = 0 →
      Represents P coef Good (Function.update s dst (V.unary g (s a)))
        (Function.update f dst fun j => g (f a j)) := by
    intro dst a g h0
    obtain ⟨e1, e2⟩ := hV.unary _ (h a).1 g h0
    exact h.update dst e1 fun k hk => by rw [e2 k hk, (h a).2 k hk]
  have huni : ∀ (a : ℕ) (g : K → K), g 0 = 0 →
      Represents P coef Good (Function.update s a (V.unaryInplace g (s a)))
        (Function.update f a fun j => g (f a j)) := by
    intro a g h0
    obtain ⟨e1, e2⟩ := hV.unaryInplace _ (h a).1 g h0
    exact h.update a e1 fun k hk => by rw [e2 k hk, (h a).2 k hk]
  have hmod : ∀ (dst : ℕ) (k : Key), P k → ∀ g : K → K, ∃ v, V.modify (s dst) k g = some v ∧
      Represents P coef Good (Function.update s dst v)
        (Function.update f dst fun j => if j = k then g (f dst j) else f dst j) := by
    intro dst k hk g
    obtain ⟨v, e1, e2, e3⟩ := hV.modify _ (h dst).1 k hk g
    refine ⟨v, e1, h.update dst e2 fun j hj => ?_⟩
    rw [e3 j hj]
    split_ifs with hjk
    · rw [(h dst).2 k hk, hjk]
    · exact (h dst).2 j hj
  cases act with
  | copy dst src => exact ⟨_, rfl, h.update dst (h src).1 (h src).2⟩
  | new dst => exact ⟨_, rfl, h.update dst hV.new_good hV.new_coef⟩
  | single dst k x =>
    obtain ⟨v, e1, e2, e3⟩ := hV.single k hk x
    simp only [step, e1]
    exact ⟨_, rfl, h.update dst e2 e3⟩
  | setCoef dst k x =>
    obtain ⟨v, e1, e2⟩ := hmod dst k hk fun _ => x
    simp only [step, e1]
    exact ⟨_, rfl, e2⟩
  | addCoef dst k x =>
    obtain ⟨v, e1, e2⟩ := hmod dst k hk fun y => y + x
    simp only [step, e1]
    exact ⟨_, rfl, e2⟩
  | clear dst =>
    exact ⟨_, rfl, h.update dst (hV.clear_good _ (h dst).1) (hV.clear_coef _ (h dst).1)⟩
  | neg dst a => exact ⟨_, rfl, hun dst a _ neg_zero⟩
  | smul dst a c => exact ⟨_, rfl, hun dst a _ (zero_mul c)⟩
  | sdiv dst a c =>
    simp only [step, VecOps.sdiv, if_neg (show ¬ c = 0 from hd)]
    exact ⟨_, rfl, hun dst a _ (zero_div c)⟩
  | add dst a b =>
    obtain ⟨e2, e3⟩ := hV.binary _ _ (h a).1 (h b).1 (fun l r => l + r) add_zero
      fun _ r hr => by rwa [zero_add]
    exact ⟨_, rfl, h.update dst e2 fun k hk =>
      (e3 k hk).trans (by rw [(h a).2 k hk, (h b).2 k hk])⟩
  | sub dst a b =>
    obtain ⟨e2, e3⟩ := hV.binary _ _ (h a).1 (h b).1 (fun l r => l - r) sub_zero
      fun _ r hr => by rwa [zero_sub, neg_ne_zero]
    exact ⟨_, rfl, h.update dst e2 fun k hk =>
      (e3 k hk).trans (by rw [(h a).2 k hk, (h b).2 k hk])⟩
  | smulInplace a c => exact ⟨_, rfl, huni a _ (zero_mul c)⟩
  | sdivInplace a c =>
    simp only [step, VecOps.sdivInplace, if_neg (show ¬ c = 0 from hd)]
    exact ⟨_, rfl, huni a _ (zero_div c)⟩
  | addInplace a b =>
    refine inplaceStep_spec hV h _ add_zero a b (fun _ _ r hr => by rwa [zero_add])
      fun _ _ r hr => ?_
    rw [← two_mul]
    exact mul_ne_zero two_ne_zero hr
  | subInplace a b =>
    exact inplaceStep_spec hV h _ sub_zero a b
      (fun _ _ r hr => by rwa [zero_sub, neg_ne_zero]) fun hst hab => absurd hab (hs hst).1
  | addScalProd a b c =>
    refine inplaceStep_spec hV h (fun l r => l + r * c) (fun l => by ring) a b
      (fun hst _ r hr => ?_) fun hst hab => absurd hab (hs hst).1
    rw [zero_add]; exact mul_ne_zero hr (hs hst).2
  | subScalProd a b c =>
    refine inplaceStep_spec hV h (fun l r => l - r * c) (fun l => by ring) a b
      (fun hst _ r hr => ?_) fun hst hab => absurd hab (hs hst).1
    rw [zero_sub, neg_ne_zero]; exact mul_ne_zero hr (hs hst).2
  | addScalDiv a b c =>
    have hc : c ≠ 0 := hd
    simp only [step, if_neg hc]
    refine inplaceStep_spec hV h (fun l r => l + r / c) (fun l => by rw [zero_div, add_zero]) a b
      (fun hst _ r hr => ?_) fun hst hab => absurd hab (hs hst).1
    rw [zero_add]; exact div_ne_zero hr hc
  | subScalDiv a b c =>
    have hc : c ≠ 0 := hd
    simp only [step, if_neg hc]
    refine inplaceStep_spec hV h (fun l r => l - r / c) (fun l => by rw [zero_div, sub_zero]) a b
      (fun hst _ r hr => ?_) fun hst hab => absurd hab (hs hst).1
    rw [zero_sub, neg_ne_zero]; exact div_ne_zero hr hc

theorem foldlM_spec [CharZero K] (hV : V.Lawful P coef Good strict) (acts : List (Act K))
    (hk : ∀ a ∈ acts, a.KeyIn P) (hd : ∀ a ∈ acts, a.Divides)
    (hs : strict → ∀ a ∈ acts, a.NoAlias ∧ a.NonzeroScale) :
    ∀ {s : ℕ → T} {f : ℕ → Coeffs K}, Represents P coef Good s f →
    ∃ s', acts.foldlM (step V) s = some s' ∧
      Represents P coef Good s' (acts.foldl Coeffs.step f) := by
  induction acts with
  | nil => exact fun h => ⟨_, rfl, h⟩
  | cons a acts ih =>
    intro s f h
    obtain ⟨s', e1, e2⟩ := step_spec hV h a (hk a List.mem_cons_self) (hd a List.mem_cons_self)
      fun hst => hs hst a List.mem_cons_self
    rw [List.foldlM_cons, e1, List.foldl_cons]
    exact ih (fun b hb => hk b (List.mem_cons_of_mem _ hb))
      (fun b hb => hd b (List.mem_cons_of_mem _ hb))
      (fun hst b hb => hs hst b (List.mem_cons_of_mem _ hb)) e2

theorem run_spec [CharZero K] (hV : V.Lawful P coef Good strict) (acts : List (Act K))
    (hk : ∀ a ∈ acts, a.KeyIn P) (hd : ∀ a ∈ acts, a.Divides)
    (hs : strict → ∀ a ∈ acts, a.NoAlias ∧ a.NonzeroScale) :
    ∃ s, run V acts = some s ∧ Represents P coef Good s (Coeffs.run acts) :=
  foldlM_spec hV acts hk hd hs fun _ => ⟨hV.new_good, hV.new_coef⟩

end

/-! ### Iteration over dense vectors -/

namespace Dense
variable {B : Basis} {start : ℕ → ℕ}

theorem itemsFrom_spec (hB : B.Lawful start) :
    ∀ (l : List K) (k : Key),
      (∀ i, i < l.length → ∃ j, ValidKey start B.depth j ∧ keyIndex start j = keyIndex start k + i) →
      (l ≠ [] → ValidKey start B.depth k) →
      ∃ r, itemsFrom B l k = some r ∧ r.map Prod.snd = l ∧
        ∀ i e, r[i]? = some e →
          ValidKey start B.depth e.1 ∧ keyIndex start e.1 = keyIndex start k + i
  | [], k, _, _ => ⟨[], rfl, rfl, fun i e h => by simp at h⟩
  | x :: xs, k, hl, hk => by
    have hk' := hk (List.cons_ne_nil _ _)
    obtain ⟨k', e1, e2⟩ := hB.advanceKey hk'
    have hnext : xs ≠ [] → ValidKey start B.depth k' ∧
        keyIndex start k' = keyIndex start k + 1 := by
      intro hxs
      obtain ⟨j, hj, hji⟩ := hl 1 (by
        have := List.length_pos_iff.2 hxs
        simp only [List.length_cons]; omega)
      rw [e2 j hj hji]
      exact ⟨hj, hji⟩
    obtain ⟨r, h1, h2, h3⟩ := itemsFrom_spec hB xs k'
      (fun i hi => by
        obtain ⟨j, hj, hji⟩ := hl (i + 1) (by simp only [List.length_cons]; omega)
        refine ⟨j, hj, ?_⟩
        rw [hji, (hnext (by rintro rfl; simp at hi)).2]; omega)
      (fun h => (hnext h).1)
    refine ⟨(k, x) :: r, ?_, ?_, ?_⟩
    · simp only [itemsFrom, e1, h1, Option.bind_eq_bind, Option.bind_some]
    · simp [h2]
    · intro i e he
      cases i with
      | zero =>
        obtain rfl := Option.some.inj he
        exact ⟨hk', rfl⟩
      | succ i =>
        rw [List.getElem?_cons_succ] at he
        obtain ⟨h4, h5⟩ := h3 i e he
        have hxs : xs ≠ [] := by
          rintro rfl
          rw [List.map_eq_nil_iff] at h2
          rw [h2] at he; simp at he
        exact ⟨h4, by rw [h5, (hnext hxs).2]; omega⟩

/-- iteration visits the keys of the entries in order -/
theorem items_spec (hB : B.Lawful start) (hpos : 0 < start (B.depth + 1)) {v : Dense K}
    (hv : Fits start B.depth v) :
    ∃ r, items B v = some r ∧ r.map Prod.snd = v.storage ∧
      ∀ i e, r[i]? = some e → ValidKey start B.depth e.1 ∧ keyIndex start e.1 = i := by
  obtain ⟨k, hk, hk0⟩ := exists_key hB.zero hpos
  have hidx : B.indexToKey 0 = some k := by
    rw [← hk0]
    exact hB.indexToKey k hk.1 hk.2
  obtain ⟨r, h1, h2, h3⟩ := itemsFrom_spec hB v.storage k
    (fun i hi => by
      obtain ⟨j, hj, hji⟩ := exists_key (D := B.depth) (i := i) hB.zero (lt_of_lt_of_le hi hv)
      exact ⟨j, hj, by rw [hji, hk0, Nat.zero_add]⟩) (fun _ => hk)
  refine ⟨r, ?_, h2, fun i e he => ?_⟩
  · unfold items
    rw [hidx]
    exact h1
  · obtain ⟨h4, h5⟩ := h3 i e he
    exact ⟨h4, by rw [h5, hk0, Nat.zero_add]⟩

/-- iteration visits every key with a non-zero coefficient once, in increasing order -/
theorem items_coef (hB : B.Lawful start) (hpos : 0 < start (B.depth + 1)) {v : Dense K}
    (hv : Fits start B.depth v) :
    ∃ r, items B v = some r ∧ r.Pairwise (fun a b => a.1 < b.1) ∧
      (∀ e ∈ r, ValidKey start B.depth e.1 ∧ e.2 = coef start v e.1) ∧
      ∀ k, ValidKey start B.depth k → coef start v k ≠ 0 → (k, coef start v k) ∈ r := by
  obtain ⟨r, h1, h2, h3⟩ := items_spec hB hpos hv
  have hlen : r.length = v.storage.length := by rw [← h2, List.length_map]
  have hval : ∀ i e, r[i]? = some e → e.2 = v.entry i := by
    intro i e he
    have : v.storage[i]? = some e.2 := by rw [← h2, List.getElem?_map, he]; rfl
    unfold entry; rw [this]; rfl
  refine ⟨r, h1, ?_, ?_, ?_⟩
  · rw [List.pairwise_iff_getElem]
    intro i j hi hj hij
    obtain ⟨v1, i1⟩ := h3 i _ (List.getElem?_eq_getElem hi)
    obtain ⟨v2, i2⟩ := h3 j _ (List.getElem?_eq_getElem hj)
    exact key_lt_of_index_lt hB.mono v1 v2 (by omega)
  · intro e he
    obtain ⟨i, hi⟩ := List.mem_iff_getElem?.1 he
    obtain ⟨h4, h5⟩ := h3 i e hi
    exact ⟨h4, by rw [hval i e hi, coef, h5]⟩
  · intro k hk hne
    have hlt : keyIndex start k < v.storage.length := by
      by_contra hcon
      exact hne (entry_of_le (by omega))
    have hlt' : keyIndex start k < r.length := by omega
    have hg := List.getElem?_eq_getElem hlt'
    obtain ⟨h4, h5⟩ := h3 _ _ hg
    have := keyIndex_inj hB.mono h4 hk h5
    refine List.mem_of_getElem? (i := keyIndex start k) ?_
    rw [hg]
    refine congrArg some (Prod.ext this ?_)
    exact hval _ _ hg

end Dense

end RoughPy.Lite
