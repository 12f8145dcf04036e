import Verif.Poly.Spec
import Mathlib.Tactic.Ring
import Mathlib.Tactic.Abel
import Mathlib.Tactic.Linarith
import Mathlib.Tactic.SplitIfs
import Mathlib.Algebra.BigOperators.Group.List.Basic

/-! # Helper lemmas for monomials and polynomials -/

namespace RoughPy.Polys

open RoughPy.Lite

/-! ## Sums over maps -/

section msum
variable {κ V G : Type} [LinearOrder κ] [AddCommGroup G]

/-- sum over the entries of a map -/
def msum (f : κ → V → G) (m : SMap κ V) : G := (m.map fun e => f e.1 e.2).sum

/-- contribution of a key -/
def mat (f : κ → V → G) (m : SMap κ V) (k : κ) : G :=
  match SMap.find m k with
  | some w => f k w
  | none => 0

theorem msum_set (f : κ → V → G) {m : SMap κ V} (hs : SMap.Sorted m) (k : κ) (v : V) :
    msum f (SMap.set m k v) + mat f m k = msum f m + f k v := by
  induction m with
  | nil => simp [SMap.set, msum, mat, SMap.find]
  | cons e m ih =>
    obtain ⟨k', v'⟩ := e
    rw [SMap.set]
    split_ifs with h1 h2
    · subst h1
      simp only [msum, mat, SMap.find, if_pos, List.map_cons, List.sum_cons]
      abel
    · have hn : SMap.find m k = none :=
        SMap.find_none_of_lt fun x hx => h2.trans (hs.head_lt x hx)
      simp only [msum, mat, SMap.find, if_neg h1, hn, List.map_cons, List.sum_cons]
      abel
    · have := ih hs.tail
      have hm : mat f ((k', v') :: m) k = mat f m k := by
        simp only [mat, SMap.find, if_neg h1]
      rw [hm]
      simp only [msum, List.map_cons, List.sum_cons] at this ⊢
      rw [add_assoc, this, add_assoc]

theorem msum_erase (f : κ → V → G) {m : SMap κ V} (hs : SMap.Sorted m) (k : κ) :
    msum f (SMap.erase m k) + mat f m k = msum f m := by
  induction m with
  | nil => simp [SMap.erase, msum, mat, SMap.find]
  | cons e m ih =>
    obtain ⟨k', v'⟩ := e
    rw [SMap.erase]
    split_ifs with h1
    · subst h1
      simp only [msum, mat, SMap.find, if_pos, List.map_cons, List.sum_cons]
      abel
    · have := ih hs.tail
      have hm : mat f ((k', v') :: m) k = mat f m k := by
        simp only [mat, SMap.find, if_neg h1]
      rw [hm]
      simp only [msum, List.map_cons, List.sum_cons] at this ⊢
      rw [add_assoc, this]

/-- a key that contributes nothing else -/
theorem msum_filter_key (f : κ → V → G) {m : SMap κ V} (hs : SMap.Sorted m) (k : κ) :
    ((m.filter fun e => e.1 = k).map fun e => f e.1 e.2).sum = mat f m k := by
  induction m with
  | nil => simp [mat, SMap.find]
  | cons e m ih =>
    obtain ⟨k', v'⟩ := e
    by_cases h : k = k'
    · subst h
      have : (m.filter fun e => decide (e.1 = k)) = [] := by
        rw [List.filter_eq_nil_iff]
        intro x hx hc
        have := hs.head_lt x hx
        simp only [decide_eq_true_eq] at hc
        rw [hc] at this
        exact lt_irrefl _ this
      simp [this, mat, SMap.find]
    · have h' : k' ≠ k := fun hc => h hc.symm
      rw [List.filter_cons, if_neg (by simpa using h'), ih hs.tail]
      simp only [mat, SMap.find, if_neg h]

end msum

/-! ## Monomials -/

namespace Mono

theorem exps_eq (m : Mono) : m.exps = msum (fun l d => Finsupp.single l d) m.entries := rfl

theorem get_eq {m : Mono} (hm : m.WF) (l : Letter) : m.exps l = m.get l := by
  obtain ⟨es⟩ := m
  simp only [exps, get, WF] at *
  induction es with
  | nil => simp [SMap.find]
  | cons e es ih =>
    obtain ⟨k, d⟩ := e
    simp only [List.map_cons, List.sum_cons, SMap.find, Finsupp.add_apply]
    have ih := ih hm.tail
    by_cases h : l = k
    · subst h
      rw [ih, SMap.find_none_of_lt hm.head_lt]
      simp
    · rw [ih, if_neg h, Finsupp.single_apply, if_neg (fun hc => h hc.symm), zero_add]

theorem exps_one : one.exps = 0 := rfl

theorem wf_one : one.WF := SMap.sorted_nil

theorem exps_ofLetter (l : Letter) (d : ℤ) : (ofLetter l d).exps = Finsupp.single l d := by
  simp [exps, ofLetter]

theorem wf_ofLetter (l : Letter) (d : ℤ) : (ofLetter l d).WF := by
  simp [WF, ofLetter, SMap.Sorted]

/-- setting the entry of a letter to its old exponent plus `d` -/
theorem exps_bump {es : SMap Letter ℤ} (hs : SMap.Sorted es) (l : Letter) (d : ℤ) :
    (Mono.mk (SMap.set es l ((match SMap.find es l with | some x => x | none => 0) + d))).exps =
      (Mono.mk es).exps + Finsupp.single l d := by
  have := msum_set (fun (l : Letter) (d : ℤ) => (Finsupp.single l d : Exps)) hs l
    ((match SMap.find es l with | some x => x | none => 0) + d)
  rw [exps_eq, exps_eq]
  simp only [mat] at this
  cases hf : SMap.find es l with
  | none => rw [hf] at this; simpa using this
  | some x =>
    rw [hf] at this
    simp only [Finsupp.single_add] at this ⊢
    have h2 := congrArg (fun z => z - (Finsupp.single l x : Exps)) this
    simp only [add_sub_cancel_right] at h2
    rw [h2]
    abel

theorem mulLoop_spec (es : List (Letter × ℤ)) (s : MulState) (hs : SMap.Sorted s.entries)
    (s' : MulState) (h : mulLoop es s = some s') :
    SMap.Sorted s'.entries ∧
      (Mono.mk s'.entries).exps =
        (Mono.mk s.entries).exps + (es.map fun e => (Finsupp.single e.1 e.2 : Exps)).sum := by
  induction es generalizing s with
  | nil =>
    simp only [mulLoop, Option.some.injEq] at h
    subst h
    exact ⟨hs, by simp⟩
  | cons e es ih =>
    rw [mulLoop] at h
    cases hstep : mulStep s e with
    | none => rw [hstep] at h; cases h
    | some t =>
      rw [hstep] at h
      have key : t.entries = SMap.set s.entries e.1
          ((match SMap.find s.entries e.1 with | some x => x | none => 0) + e.2) := by
        rw [mulStep] at hstep
        split_ifs at hstep
        cases hf : SMap.find s.entries e.1 with
        | none =>
          rw [hf] at hstep
          simp only [Option.some.injEq] at hstep
          subst hstep; simp
        | some d =>
          rw [hf] at hstep
          simp only [Option.some.injEq] at hstep
          subst hstep; rfl
      have hsort : SMap.Sorted t.entries := by rw [key]; exact SMap.sorted_set hs _ _
      obtain ⟨h1, h2⟩ := ih t hsort h
      refine ⟨h1, ?_⟩
      rw [h2, key, exps_bump hs, List.map_cons, List.sum_cons, add_assoc]

theorem mul_spec {m n r : Mono} (hm : m.WF) (h : mul m n = some r) :
    r.WF ∧ r.exps = m.exps + n.exps := by
  rw [mul] at h
  cases hl : mulLoop n.entries ⟨m.entries, true⟩ with
  | none => rw [hl] at h; cases h
  | some s =>
    rw [hl] at h
    simp only [Option.some.injEq] at h
    subst h
    exact mulLoop_spec _ ⟨m.entries, true⟩ hm _ hl

theorem mulLoop_invalid {es : List (Letter × ℤ)} {s : MulState} (h : s.lendValid = false) :
    mulLoop es s ≠ none ↔ es = [] := by
  cases es with
  | nil => simp [mulLoop]
  | cons e es => simp [mulLoop, mulStep, h]

theorem mulLoop_defined (es : List (Letter × ℤ)) (s : MulState) (hs : SMap.Sorted s.entries)
    (hv : s.lendValid = true) :
    mulLoop es s ≠ none ↔ ∀ e ∈ es.dropLast, ∃ d, (e.1, d) ∈ s.entries := by
  induction es generalizing s with
  | nil => simp [mulLoop]
  | cons e es ih =>
    rw [mulLoop, mulStep]
    simp only [hv, Bool.not_true, Bool.false_eq_true, if_false]
    cases hf : SMap.find s.entries e.1 with
    | none =>
      dsimp only
      rw [mulLoop_invalid rfl]
      cases es with
      | nil => simp
      | cons a es =>
        simp only [reduceCtorEq, false_iff, List.dropLast_cons_cons]
        intro hc
        obtain ⟨d, hd⟩ := hc e (by simp)
        rw [SMap.find_of_mem hs hd] at hf
        cases hf
    | some d =>
      dsimp only
      rw [ih ⟨_, true⟩ (SMap.sorted_set hs _ _) rfl]
      have hmem : ∀ k, (∃ x, (k, x) ∈ SMap.set s.entries e.1 (d + e.2)) ↔
          ∃ x, (k, x) ∈ s.entries := by
        intro k
        constructor
        · rintro ⟨x, hx⟩
          rw [SMap.mem_iff_find (SMap.sorted_set hs _ _), SMap.find_set hs] at hx
          split_ifs at hx with hk
          · subst hk; exact ⟨d, SMap.mem_of_find hf⟩
          · exact ⟨x, SMap.mem_of_find hx⟩
        · rintro ⟨x, hx⟩
          by_cases hk : k = e.1
          · refine ⟨d + e.2, ?_⟩
            rw [SMap.mem_iff_find (SMap.sorted_set hs _ _), SMap.find_set hs, if_pos hk]
          · refine ⟨x, ?_⟩
            rw [SMap.mem_iff_find (SMap.sorted_set hs _ _), SMap.find_set hs, if_neg hk]
            exact SMap.find_of_mem hs hx
      simp only [hmem]
      cases es with
      | nil => simp
      | cons a es =>
        simp only [List.dropLast_cons_cons, List.mem_cons, forall_eq_or_imp]
        exact ⟨fun h => ⟨⟨d, SMap.mem_of_find hf⟩, h⟩, fun h => h.2⟩

theorem mul_defined {m n : Mono} (hm : m.WF) : (∃ r, mul m n = some r) ↔ SafeMul m n := by
  rw [SafeMul, ← mulLoop_defined n.entries ⟨m.entries, true⟩ hm rfl, mul]
  cases mulLoop n.entries ⟨m.entries, true⟩ <;> simp

theorem mul_ofLetter {m : Mono} (hm : m.WF) (l : Letter) (d : ℤ) :
    ∃ r, mul m (ofLetter l d) = some r ∧ r.WF ∧ r.exps = m.exps + Finsupp.single l d := by
  obtain ⟨r, hr⟩ := (mul_defined (n := ofLetter l d) hm).2 (by simp [SafeMul, ofLetter])
  have := mul_spec hm hr
  rw [exps_ofLetter] at this
  exact ⟨r, hr, this⟩

theorem foldl_bump (es : List (Letter × ℤ)) (m : SMap Letter ℤ) (hs : SMap.Sorted m) :
    SMap.Sorted (es.foldl (fun tmp e =>
      SMap.set tmp e.1 ((match SMap.find tmp e.1 with | some d => d | none => 0) + e.2)) m) ∧
    (Mono.mk (es.foldl (fun tmp e =>
      SMap.set tmp e.1 ((match SMap.find tmp e.1 with | some d => d | none => 0) + e.2)) m)).exps =
      (Mono.mk m).exps + (es.map fun e => (Finsupp.single e.1 e.2 : Exps)).sum := by
  induction es generalizing m with
  | nil => exact ⟨hs, by simp⟩
  | cons e es ih =>
    obtain ⟨h1, h2⟩ := ih _ (SMap.sorted_set hs e.1
      ((match SMap.find m e.1 with | some d => d | none => 0) + e.2))
    refine ⟨h1, ?_⟩
    rw [List.foldl_cons, h2, exps_bump hs, List.map_cons, List.sum_cons, add_assoc]

theorem keyProduct_spec {m : Mono} (hm : m.WF) (n : Mono) :
    ∃ r, keyProduct m n = [(r, 1)] ∧ r.WF ∧ r.exps = m.exps + n.exps :=
  ⟨_, rfl, foldl_bump n.entries m.entries hm⟩

theorem degree_eq (m : Mono) : m.degree = (m.entries.map fun e => e.2).sum := by
  have : ∀ (l : List (Letter × ℤ)) (c : ℤ),
      l.foldl (fun curr e => curr + e.2) c = c + (l.map fun e => e.2).sum := by
    intro l
    induction l with
    | nil => simp
    | cons e l ih => intro c; rw [List.foldl_cons, ih]; simp [add_assoc]
  rw [degree, this, zero_add]

theorem exps_inj {m n : Mono} (hm : m.WF) (hn : n.WF) (pm : m.Proper) (pn : n.Proper)
    (h : m.exps = n.exps) : m = n := by
  have hfind : ∀ {m : Mono}, m.WF → m.Proper → ∀ l,
      SMap.find m.entries l = if m.exps l = 0 then none else some (m.exps l) := by
    intro m hm pm l
    rw [get_eq hm, get]
    cases hf : SMap.find m.entries l with
    | none => simp
    | some d =>
      have := pm _ (SMap.mem_of_find hf)
      simp [this]
  obtain ⟨m⟩ := m
  obtain ⟨n⟩ := n
  congr 1
  refine SMap.ext hm hn fun l => ?_
  rw [hfind hm pm, hfind hn pn, h]

theorem beq_iff (m n : Mono) : beq m n = true ↔ m = n := by
  obtain ⟨m⟩ := m
  obtain ⟨n⟩ := n
  simp only [beq, Bool.and_eq_true, decide_eq_true_eq, Mono.mk.injEq]
  exact ⟨fun h => h.2, fun h => ⟨by rw [h], h⟩⟩

theorem entriesLt_iff (m n : List (Letter × ℤ)) :
    entriesLt m n = true ↔ (m.map toLex : List (ℕ ×ₗ ℤ)) < n.map toLex := by
  induction m generalizing n with
  | nil =>
    cases n with
    | nil => simp [entriesLt]
    | cons b n => simp [entriesLt]
  | cons a m ih =>
    cases n with
    | nil => simp [entriesLt]
    | cons b n =>
      have e1 : (a.1 < b.1 ∨ (a.1 = b.1 ∧ a.2 < b.2)) ↔ toLex a < toLex b := by
        rw [Prod.Lex.lt_iff]; rfl
      have e2 : (b.1 < a.1 ∨ (b.1 = a.1 ∧ b.2 < a.2)) ↔ toLex b < toLex a := by
        rw [Prod.Lex.lt_iff]; rfl
      rw [entriesLt, List.map_cons, List.map_cons, List.cons_lt_cons_iff]
      simp only [e1, e2]
      split_ifs with h1 h2
      · simp [h1]
      · simp only [false_iff, not_or, not_and]
        exact ⟨h1, fun hc => absurd h2 (by rw [hc]; exact lt_irrefl _)⟩
      · have heq : toLex a = toLex b := le_antisymm (not_lt.1 h2) (not_lt.1 h1)
        rw [ih]
        exact ⟨fun h => Or.inr ⟨heq, h⟩, fun h => h.elim (fun hc => absurd hc h1) fun hc => hc.2⟩

theorem lt_iff (m n : Mono) : lt m n = true ↔ m < n := by
  have : m < n ↔ rank m < rank n := Iff.rfl
  rw [this, rank, rank, Prod.Lex.lt_iff, lt]
  simp only [Bool.or_eq_true, Bool.and_eq_true, decide_eq_true_eq, entriesLt_iff]
  rfl

theorem power_eq (arg : ℚ) (n : ℕ) : power arg n = arg ^ n := by
  induction n using Nat.strong_induction_on with
  | _ n ih =>
    rw [power]
    split_ifs with h0 h1 h2
    · subst h0; simp
    · subst h1; simp
    · dsimp only
      rw [ih (n / 2) (by omega), ← pow_add]; congr 1; omega
    · dsimp only
      rw [ih (n / 2) (by omega), ← pow_add, ← pow_succ']; congr 1; omega

end Mono

/-! ## Polynomials -/

theorem term_add (e : Exps) (a b : ℚ) : term e (a + b) = term e a + term e b :=
  AddMonoidAlgebra.single_add ..

theorem term_zero (e : Exps) : term e 0 = 0 := AddMonoidAlgebra.single_zero _

theorem term_mul (e f : Exps) (a b : ℚ) : term e a * term f b = term (e + f) (a * b) :=
  AddMonoidAlgebra.single_mul_single ..

theorem term_neg (e : Exps) (a : ℚ) : term e (-a) = -term e a := by
  rw [eq_neg_iff_add_eq_zero, ← term_add, neg_add_cancel, term_zero]

theorem term_sub (e : Exps) (a b : ℚ) : term e (a - b) = term e a - term e b := by
  rw [sub_eq_add_neg, term_add, term_neg, sub_eq_add_neg]

namespace Poly

theorem val_eq (p : Poly) : val p = msum (fun m c => term m.exps c) p := rfl

theorem val_nil : val ([] : Poly) = 0 := rfl

theorem val_cons (e : Mono × ℚ) (p : Poly) : val (e :: p) = term e.1.exps e.2 + val p := by
  simp [val]

theorem wf_nil : WF [] := ⟨SMap.sorted_nil, by simp⟩

theorem WF.tail {e : Mono × ℚ} {p : Poly} (h : WF (e :: p)) : WF p :=
  ⟨h.1.tail, fun x hx => h.2 x (List.mem_cons_of_mem _ hx)⟩

theorem wf_set {p : Poly} (hp : WF p) {m : Mono} (hm : m.WF) {c : ℚ} (hc : c ≠ 0) :
    WF (SMap.set p m c) := by
  refine ⟨SMap.sorted_set hp.1 _ _, fun x hx => ?_⟩
  rcases SMap.mem_set hx with h | h
  · subst h; exact ⟨hm, hc⟩
  · exact hp.2 x h

theorem wf_erase {p : Poly} (hp : WF p) (m : Mono) : WF (SMap.erase p m) :=
  ⟨SMap.sorted_erase hp.1 _, fun x hx => hp.2 x (SMap.mem_erase hx)⟩

theorem mat_term (p : Poly) (m : Mono) :
    mat (fun (m : Mono) (c : ℚ) => term m.exps c) p m = term m.exps (coeff p m) := by
  simp only [mat, coeff]
  cases SMap.find p m with
  | none => exact (term_zero _).symm
  | some c => rfl

theorem val_set {p : Poly} (hp : WF p) (m : Mono) (c : ℚ) :
    val (SMap.set p m c) = val p + term m.exps (c - coeff p m) := by
  have := msum_set (fun (m : Mono) (c : ℚ) => term m.exps c) hp.1 m c
  rw [mat_term] at this
  rw [val_eq, val_eq, term_sub, ← add_sub_assoc, ← this, add_sub_cancel_right]

theorem val_erase {p : Poly} (hp : WF p) (m : Mono) :
    val (SMap.erase p m) = val p + term m.exps (0 - coeff p m) := by
  have := msum_erase (fun (m : Mono) (c : ℚ) => term m.exps c) hp.1 m
  rw [mat_term] at this
  rw [val_eq, val_eq, term_sub, term_zero, ← this]
  abel

theorem modify_spec {p : Poly} (hp : WF p) {m : Mono} (hm : m.WF) (f : ℚ → ℚ) :
    WF (modify p m f) ∧ val (modify p m f) = val p + term m.exps (f (coeff p m) - coeff p m) := by
  have hc : coeff p m = match SMap.find p m with | some c => c | none => 0 := rfl
  rw [modify]
  cases hf : SMap.find p m with
  | none =>
    rw [hf] at hc
    dsimp only at hc ⊢
    rw [hc]
    split_ifs with h
    · exact ⟨wf_set hp hm h, by rw [val_set hp, hc]⟩
    · simp only [ne_eq, not_not] at h
      exact ⟨hp, by rw [h, sub_zero, term_zero, add_zero]⟩
  | some c =>
    rw [hf] at hc
    dsimp only at hc ⊢
    rw [hc]
    split_ifs with h
    · exact ⟨wf_set hp hm h, by rw [val_set hp, hc]⟩
    · simp only [ne_eq, not_not] at h
      exact ⟨wf_erase hp _, by rw [val_erase hp, hc, h]⟩

theorem ofMono_spec {m : Mono} (hm : m.WF) (s : ℚ) :
    WF (ofMono m s) ∧ val (ofMono m s) = term m.exps s := by
  have := modify_spec wf_nil hm (fun _ => s)
  refine ⟨this.1, ?_⟩
  rw [ofMono, zero, this.2, val_nil, zero_add]
  simp [coeff, SMap.find]

theorem ofScalar_spec (s : ℚ) : WF (ofScalar s) ∧ val (ofScalar s) = const s := by
  rw [ofScalar]
  split_ifs with h
  · refine ⟨⟨by simp [SMap.Sorted], ?_⟩, by rw [val_cons, val_nil, add_zero]; rfl⟩
    intro e he
    simp only [List.mem_singleton] at he
    subst he
    exact ⟨Mono.wf_one, h⟩
  · simp only [ne_eq, not_not] at h
    exact ⟨wf_nil, by rw [val_nil, h, const, term_zero]⟩

theorem mem_unary {op : ℚ → ℚ} {p : Poly} {x : Mono × ℚ} (h : x ∈ unary op p) :
    ∃ e ∈ p, x.1 = e.1 ∧ x.2 = op e.2 ∧ op e.2 ≠ 0 := by
  rw [unary, List.mem_filterMap] at h
  obtain ⟨e, he, hx⟩ := h
  split_ifs at hx with hc
  simp only [Option.some.injEq] at hx
  subst hx
  exact ⟨e, he, rfl, rfl, hc⟩

theorem unary_spec {p : Poly} (hp : WF p) (c : ℚ) :
    WF (unary (fun s => s * c) p) ∧ val (unary (fun s => s * c) p) = const c * val p := by
  refine ⟨⟨?_, ?_⟩, ?_⟩
  · have h := hp.1
    clear hp
    induction p with
    | nil => exact List.Pairwise.nil
    | cons e p ih =>
      rw [unary, List.filterMap_cons]
      split_ifs with h0
      · dsimp only
        refine List.pairwise_cons.2 ⟨fun x hx => ?_, ih h.tail⟩
        obtain ⟨e', he', h1, -, -⟩ := mem_unary (op := fun s => s * c) hx
        rw [h1]; exact h.head_lt _ he'
      · exact ih h.tail
  · intro x hx
    obtain ⟨e, he, h1, h2, h3⟩ := mem_unary hx
    rw [h1, h2]; exact ⟨(hp.2 e he).1, h3⟩
  · clear hp
    induction p with
    | nil => rw [unary]; simp [val]
    | cons e p ih =>
      rw [unary, List.filterMap_cons]
      have hm : term e.1.exps (e.2 * c) = const c * term e.1.exps e.2 := by
        rw [const, term_mul, zero_add, mul_comm]
      split_ifs with h0
      · dsimp only
        rw [val_cons, val_cons, mul_add]
        dsimp only
        rw [hm]
        congr 1
      · dsimp only
        simp only [ne_eq, not_not] at h0
        rw [val_cons, mul_add, ← hm, h0, term_zero, zero_add]
        exact ih

theorem neg_spec {p : Poly} (hp : WF p) : WF (neg p) ∧ val (neg p) = -val p := by
  have h : neg p = unary (fun s => s * (-1)) p := by
    rw [neg]; congr 1; funext s; ring
  rw [h]
  refine ⟨(unary_spec hp _).1, ?_⟩
  rw [(unary_spec hp _).2]
  have : const (-1) = -1 := by rw [const, term_neg]; rfl
  rw [this]; ring

theorem sdiv_spec {p : Poly} (hp : WF p) (c : ℚ) :
    WF (sdiv p c) ∧ val (sdiv p c) = const (1 / c) * val p := by
  have h : sdiv p c = unary (fun s => s * (1 / c)) p := by
    rw [sdiv]; congr 1; funext s; ring
  rw [h]
  exact unary_spec hp _

theorem combine_spec (op : ℚ → ℚ → ℚ) (σ : ℚ) (hop : ∀ a b, op a b = a + σ * b) (hσ : σ ≠ 0)
    {p : Poly} (hp : WF p) {e : Mono × ℚ} (he : e.1.WF ∧ e.2 ≠ 0) :
    WF (combine op p e) ∧ val (combine op p e) = val p + const σ * term e.1.exps e.2 := by
  have hm : const σ * term e.1.exps e.2 = term e.1.exps (σ * e.2) := by
    rw [const, term_mul, zero_add]
  have hc : coeff p e.1 = match SMap.find p e.1 with | some c => c | none => 0 := rfl
  rw [combine, hm]
  cases hf : SMap.find p e.1 with
  | none =>
    rw [hf] at hc
    dsimp only at hc ⊢
    refine ⟨wf_set hp he.1 ?_, ?_⟩
    · rw [hop, zero_add]; exact mul_ne_zero hσ he.2
    · rw [val_set hp, hc, hop, zero_add, sub_zero]
  | some v =>
    rw [hf] at hc
    dsimp only at hc ⊢
    split_ifs with h
    · refine ⟨wf_erase hp _, ?_⟩
      rw [val_erase hp, hc]
      rw [hop] at h
      congr 2
      linarith
    · refine ⟨wf_set hp he.1 h, ?_⟩
      rw [val_set hp, hc, hop]
      congr 2
      ring

theorem binary_spec (op : ℚ → ℚ → ℚ) (σ : ℚ) (hop : ∀ a b, op a b = a + σ * b) (hσ : σ ≠ 0)
    {q : Poly} (hq : WF q) : ∀ {p : Poly}, WF p →
    WF (binary op p q) ∧ val (binary op p q) = val p + const σ * val q := by
  induction q with
  | nil => intro p hp; exact ⟨hp, by rw [val_nil, mul_zero, add_zero]; rfl⟩
  | cons e q ih =>
    intro p hp
    have h1 := combine_spec op σ hop hσ hp (hq.2 e (List.mem_cons_self ..))
    have h2 := ih hq.tail h1.1
    refine ⟨h2.1, ?_⟩
    rw [binary, List.foldl_cons]
    rw [binary] at h2
    rw [h2.2, h1.2, val_cons, mul_add, add_assoc]

theorem const_one : const 1 = 1 := rfl

theorem add_spec {p q : Poly} (hp : WF p) (hq : WF q) :
    WF (add p q) ∧ val (add p q) = val p + val q := by
  have := binary_spec (fun l r => l + r) 1 (by intros; ring) one_ne_zero hq hp
  rw [const_one, one_mul] at this
  exact this

theorem sub_spec {p q : Poly} (hp : WF p) (hq : WF q) :
    WF (sub p q) ∧ val (sub p q) = val p - val q := by
  have := binary_spec (fun l r => l - r) (-1) (by intros; ring) (by norm_num) hq hp
  have h1 : const (-1) = -1 := by rw [const, term_neg]; rfl
  rw [h1, neg_one_mul, ← sub_eq_add_neg] at this
  exact this

theorem aspHelper_spec {out : Poly} (ho : WF out) {r : Mono} (hr : r.WF) (s : ℚ) :
    WF (aspHelper out [(r, 1)] s) ∧ val (aspHelper out [(r, 1)] s) = val out + term r.exps s := by
  have := modify_spec ho hr (fun x => x + ((1 : ℤ) : ℚ) * s)
  refine ⟨this.1, ?_⟩
  rw [aspHelper, List.foldl_cons, List.foldl_nil, this.2]
  congr 2
  push_cast
  ring

theorem fma_row {l : Mono × ℚ} (hl : l.1.WF) {rhs : Poly} (hr : WF rhs) :
    ∀ {out : Poly}, WF out →
    WF (rhs.foldl (fun out r => aspHelper out (Mono.keyProduct l.1 r.1) (l.2 * r.2)) out) ∧
    val (rhs.foldl (fun out r => aspHelper out (Mono.keyProduct l.1 r.1) (l.2 * r.2)) out) =
      val out + term l.1.exps l.2 * val rhs := by
  induction rhs with
  | nil => intro out ho; exact ⟨ho, by rw [val_nil, mul_zero, add_zero]; rfl⟩
  | cons r rhs ih =>
    intro out ho
    rw [List.foldl_cons]
    obtain ⟨k, hk, hwf, hexp⟩ := Mono.keyProduct_spec hl r.1
    rw [hk]
    have h1 := aspHelper_spec ho hwf (l.2 * r.2)
    have h2 := ih hr.tail h1.1
    refine ⟨h2.1, ?_⟩
    rw [h2.2, h1.2, val_cons, mul_add, term_mul, hexp, add_assoc]

theorem fma_spec {lhs rhs : Poly} (hl : WF lhs) (hr : WF rhs) : ∀ {out : Poly}, WF out →
    WF (fma out lhs rhs) ∧ val (fma out lhs rhs) = val out + val lhs * val rhs := by
  induction lhs with
  | nil => intro out ho; exact ⟨ho, by rw [val_nil, zero_mul, add_zero]; rfl⟩
  | cons l lhs ih =>
    intro out ho
    have h1 := fma_row (hl.2 l (List.mem_cons_self ..)).1 hr ho
    have h2 := ih hl.tail h1.1
    rw [fma] at h2 ⊢
    rw [List.foldl_cons]
    refine ⟨h2.1, ?_⟩
    rw [h2.2, h1.2, val_cons, add_mul, add_assoc]

theorem mul_spec {p q : Poly} (hp : WF p) (hq : WF q) :
    WF (mul p q) ∧ val (mul p q) = val p * val q := by
  rw [mul]
  split_ifs with h
  · have := fma_spec hp hq wf_nil
    rw [val_nil, zero_add] at this
    exact this
  · refine ⟨wf_nil, ?_⟩
    simp only [Bool.and_eq_true, Bool.not_eq_true', not_and, Bool.not_eq_false] at h
    rw [zero, val_nil]
    cases p with
    | nil => rw [val_nil, zero_mul]
    | cons e p =>
      have := h rfl
      rw [List.isEmpty_iff] at this
      rw [this, val_nil, mul_zero]

theorem mulInplace_eq (p q : Poly) : mulInplace p q = mul p q := by
  rw [mulInplace, mul]
  cases p <;> cases q <;> rfl

theorem powLoop_spec {p : Poly} (hp : WF p) (n : ℕ) : ∀ {r : Poly}, WF r →
    WF (powLoop p n r) ∧ val (powLoop p n r) = val r * val p ^ n := by
  induction n with
  | zero => intro r hr; exact ⟨hr, by rw [powLoop, pow_zero, mul_one]⟩
  | succ n ih =>
    intro r hr
    have h1 := mul_spec hr hp
    rw [← mulInplace_eq] at h1
    have h2 := ih h1.1
    rw [powLoop]
    exact ⟨h2.1, by rw [h2.2, h1.2, pow_succ']; ring⟩

theorem binarySelf_spec (op : ℚ → ℚ → ℚ) {p : Poly} (h : ∀ e ∈ p, op e.2 e.2 ≠ 0) :
    binarySelf op p = some (p.map fun e => (e.1, op e.2 e.2)) := by
  induction p with
  | nil => rfl
  | cons e p ih =>
    obtain ⟨k, v⟩ := e
    rw [binarySelf, if_neg (h _ (List.mem_cons_self ..)),
      ih fun x hx => h x (List.mem_cons_of_mem _ hx)]
    rfl

theorem addSelf_spec {p : Poly} (hp : WF p) :
    ∃ r, binarySelf (fun l r => l + r) p = some r ∧ WF r ∧ val r = val p + val p := by
  have hz : ∀ e ∈ p, e.2 + e.2 ≠ 0 := fun e he hc => (hp.2 e he).2 (by linarith)
  refine ⟨_, binarySelf_spec _ hz, ⟨?_, ?_⟩, ?_⟩
  · have := hp.1
    unfold SMap.Sorted at this ⊢
    rw [List.pairwise_map]
    exact this
  · intro x hx
    rw [List.mem_map] at hx
    obtain ⟨e, he, rfl⟩ := hx
    exact ⟨(hp.2 e he).1, hz e he⟩
  · clear hp hz
    induction p with
    | nil => simp [val]
    | cons e p ih =>
      rw [List.map_cons, val_cons, ih, val_cons]
      dsimp only
      rw [term_add]
      abel

theorem val_coeff {p : Poly} (hp : WF p) (pp : Proper p) {m : Mono} (hm : m.WF)
    (pm : m.Proper) : (val p).coeff m.exps = coeff p m := by
  induction p with
  | nil => simp [val, coeff, SMap.find]
  | cons e p ih =>
    obtain ⟨k, c⟩ := e
    rw [val_cons, AddMonoidAlgebra.coeff_add, Finsupp.add_apply,
      ih hp.tail fun x hx => pp x (List.mem_cons_of_mem _ hx)]
    rw [term, AddMonoidAlgebra.coeff_single]
    simp only [coeff, SMap.find]
    by_cases h : m = k
    · subst h
      rw [SMap.find_none_of_lt hp.1.head_lt]
      simp
    · rw [if_neg h, Finsupp.single_apply, if_neg, zero_add]
      intro hc
      exact h (Mono.exps_inj hm (hp.2 _ (List.mem_cons_self ..)).1 pm
        (pp _ (List.mem_cons_self ..)) hc.symm)

theorem beq_iff {p q : Poly} (hp : WF p) (hq : WF q) : beq p q = true ↔ p = q := by
  constructor
  · intro h
    simp only [beq, Bool.and_eq_true, decide_eq_true_eq, List.all_eq_true] at h
    have hsub : ∀ x ∈ q, x ∈ p := fun x hx => SMap.mem_of_find (h.2 x hx)
    have nd : ∀ {p : Poly}, WF p → p.Nodup := fun hp => hp.1.imp fun hab hc => by
      rw [hc] at hab; exact lt_irrefl _ hab
    have hperm : q.Perm p := (List.subperm_of_subset (nd hq) hsub).perm_of_length_le (by omega)
    refine SMap.ext hp.1 hq.1 fun k => ?_
    apply Option.ext
    intro v
    rw [← SMap.mem_iff_find hp.1, ← SMap.mem_iff_find hq.1]
    exact (hperm.mem_iff (a := (k, v))).symm
  · rintro rfl
    simp only [beq, Bool.and_eq_true, decide_eq_true_eq, List.all_eq_true]
    exact ⟨trivial, fun x hx => SMap.find_of_mem hp.1 hx⟩

theorem val_inj {p q : Poly} (hp : WF p) (hq : WF q) (pp : Proper p) (pq : Proper q)
    (h : val p = val q) : p = q := by
  have hfind : ∀ {p : Poly}, WF p → ∀ m,
      SMap.find p m = if coeff p m = 0 then none else some (coeff p m) := by
    intro p hp m
    rw [coeff]
    cases hf : SMap.find p m with
    | none => simp
    | some c => simp [(hp.2 _ (SMap.mem_of_find hf)).2]
  refine SMap.ext hp.1 hq.1 fun m => ?_
  by_cases hm : m.WF ∧ m.Proper
  · rw [hfind hp, hfind hq, ← val_coeff hp pp hm.1 hm.2, ← val_coeff hq pq hm.1 hm.2, h]
  · have hn : ∀ {p : Poly}, WF p → Proper p → SMap.find p m = none := by
      intro p hp pp
      cases hf : SMap.find p m with
      | none => rfl
      | some c =>
        have := SMap.mem_of_find hf
        exact absurd ⟨(hp.2 _ this).1, pp _ this⟩ hm
    rw [hn hp pp, hn hq pq]

end Poly

end RoughPy.Polys
