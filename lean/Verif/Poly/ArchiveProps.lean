import Verif.Poly.Lemmas

/-! # Archives of monomials and polynomials -/

namespace RoughPy.Polys

open RoughPy.Lite

/-! ## Helper lemmas -/

theorem set_last {κ V : Type} [LinearOrder κ] {m : SMap κ V} {k : κ} {v : V}
    (h : ∀ x ∈ m, x.1 < k) : SMap.set m k v = m ++ [(k, v)] := by
  induction m with
  | nil => rfl
  | cons e m ih =>
    obtain ⟨k', v'⟩ := e
    have hlt : k' < k := h _ (List.mem_cons_self ..)
    rw [SMap.set, if_neg (ne_of_gt hlt), if_neg (not_lt_of_gt hlt),
      ih fun x hx => h x (List.mem_cons_of_mem _ hx)]
    rfl

theorem sorted_foldl_set {κ V : Type} [LinearOrder κ] (es : List (κ × V)) :
    ∀ {m : SMap κ V}, SMap.Sorted m →
      SMap.Sorted (es.foldl (fun t e => SMap.set t e.1 e.2) m) := by
  induction es with
  | nil => exact fun h => h
  | cons e es ih => exact fun h => ih (SMap.sorted_set h _ _)

theorem find_foldl_set {κ V : Type} [LinearOrder κ] {es : SMap κ V} (hes : SMap.Sorted es) (k : κ) :
    ∀ {m : SMap κ V}, SMap.Sorted m →
      SMap.find (es.foldl (fun t e => SMap.set t e.1 e.2) m) k =
        match SMap.find es k with
        | some v => some v
        | none => SMap.find m k := by
  induction es with
  | nil => intro m _; rfl
  | cons e es ih =>
    intro m hm
    obtain ⟨k', v'⟩ := e
    rw [List.foldl_cons, ih hes.tail (SMap.sorted_set hm _ _), SMap.find_set hm]
    rw [SMap.find]
    by_cases hk : k = k'
    · subst hk
      rw [SMap.find_none_of_lt hes.head_lt]
      simp
    · simp only [if_neg hk]

theorem foldl_set_eq {κ V : Type} [LinearOrder κ] {es m : SMap κ V} (hes : SMap.Sorted es)
    (hm : SMap.Sorted m) (h : ∀ x ∈ m, ∃ v, (x.1, v) ∈ es) :
    es.foldl (fun t e => SMap.set t e.1 e.2) m = es := by
  refine SMap.ext (sorted_foldl_set es hm) hes fun k => ?_
  rw [find_foldl_set hes k hm]
  cases hf : SMap.find es k with
  | some v => rfl
  | none =>
    cases hg : SMap.find m k with
    | none => rfl
    | some w =>
      obtain ⟨v, hv⟩ := h _ (SMap.mem_of_find hg)
      rw [SMap.find_of_mem hes hv] at hf
      cases hf

/-- letters are 64 bit words -/
def Mono.Words (m : Mono) : Prop := ∀ e ∈ m.entries, e.1 < 2 ^ 64

theorem split_word (n : ℕ) (h : n < 2 ^ 64) :
    n / 2 ^ 56 % 256 * 2 ^ 56 + n % 2 ^ 56 % 2 ^ 56 = n := by omega

theorem mkLetter_eq {l : Letter} (h : l < 2 ^ 64) :
    mkLetter (Letter.symbol l) (Letter.index l) = l :=
  split_word l h

theorem loadEntries_spec (es : List (Letter × ℤ)) (hw : ∀ e ∈ es, e.1 < 2 ^ 64) (rest : List ℤ) :
    ∀ m : Mono, loadEntries es.length m
      ((es.flatMap fun e => [(Letter.symbol e.1 : ℤ), (Letter.index e.1 : ℤ), e.2]) ++ rest) =
      some (⟨es.foldl (fun t e => SMap.set t e.1 e.2) m.entries⟩, rest) := by
  induction es with
  | nil => intro m; rfl
  | cons e es ih =>
    intro m
    rw [List.flatMap_cons]
    simp only [List.length_cons, List.cons_append, List.nil_append, loadEntries,
      Int.toNat_natCast]
    rw [mkLetter_eq (hw e (List.mem_cons_self ..)),
      ih fun x hx => hw x (List.mem_cons_of_mem _ hx)]
    rfl

theorem loadMono_spec {m : Mono} (hm : m.WF) (hw : m.Words) {old : Mono} (ho : old.WF)
    (h : ∀ l, old.Has l → m.Has l) (rest : List ℤ) :
    loadMono old (saveMono m ++ rest) = some (m, rest) := by
  rw [saveMono, List.cons_append, loadMono, Int.toNat_natCast, loadEntries_spec _ hw,
    foldl_set_eq hm ho fun x hx => h x.1 ⟨x.2, hx⟩]

theorem modify_last {p : Poly} {m : Mono} {c : ℚ} (h : ∀ x ∈ p, x.1 < m) (hc : c ≠ 0) :
    Poly.modify p m (fun _ => c) = p ++ [(m, c)] := by
  have hn : SMap.find p m = none :=
    SMap.find_eq_none_of_forall fun x hx => ne_of_lt (h x hx)
  rw [Poly.modify, hn]
  dsimp only
  rw [if_pos hc, set_last h]

theorem loadTerms_spec (es : Poly) : ∀ (m : Mono) (p : Poly) (rest : List ℤ),
    Poly.WF (p ++ es) → (∀ e ∈ es, e.1.Words) → m.WF →
    (∀ e ∈ es, ∀ l, m.Has l → e.1.Has l) →
    es.Pairwise (fun a b => ∀ l, a.1.Has l → b.1.Has l) →
    loadTerms es.length m p
      ((es.flatMap fun e => saveMono e.1 ++ [e.2.num, (e.2.den : ℤ)]) ++ rest) =
      some (p ++ es, rest) := by
  induction es with
  | nil => intro m p rest _ _ _ _ _; simp [loadTerms]
  | cons e es ih =>
    intro m p rest hwf hw hm hsub hpw
    have hmem : e ∈ p ++ e :: es := by simp
    rw [List.length_cons, loadTerms, List.flatMap_cons, List.append_assoc, List.append_assoc,
      loadMono_spec (hwf.2 e hmem).1 (hw e (List.mem_cons_self ..)) hm
        (hsub e (List.mem_cons_self ..))]
    simp only [List.cons_append, List.nil_append]
    have hq : ((e.2.num : ℚ) / ((e.2.den : ℤ) : ℚ)) = e.2 := by
      rw [Int.cast_natCast]; exact Rat.num_div_den e.2
    rw [hq]
    have hlt : ∀ x ∈ p, x.1 < e.1 := by
      intro x hx
      have := hwf.1
      rw [SMap.Sorted, List.pairwise_append] at this
      exact this.2.2 x hx e (List.mem_cons_self ..)
    rw [modify_last hlt (hwf.2 e hmem).2]
    have happ : p ++ [(e.1, e.2)] ++ es = p ++ e :: es := by simp
    rw [ih e.1 (p ++ [(e.1, e.2)]) rest (by rw [happ]; exact hwf)
      (fun x hx => hw x (List.mem_cons_of_mem _ hx)) (hwf.2 e hmem).1
      (fun x hx => (List.pairwise_cons.1 hpw).1 x hx) (List.pairwise_cons.1 hpw).2, happ]

/-! ## C88: archives -/

/-- **C88**.  A monomial written to an archive and read into a new object is the same monomial,
and what follows in the archive is left. -/
theorem C88_monomial {m : Mono} (hm : m.WF) (hw : m.Words) (rest : List ℤ) :
    loadMono Mono.one (saveMono m ++ rest) = some (m, rest) :=
  loadMono_spec hm hw Mono.wf_one (fun _ ⟨_, h⟩ => nomatch h) rest

/-- **C88** (in part).  A polynomial written to an archive is read back if every indeterminate of
a term occurs in all later terms, as in polynomials in one indeterminate.  Missing: other
polynomials, for which the statement is false. -/
theorem C88_polynomial_partial {p : Poly} (hp : p.WF) (hw : ∀ e ∈ p, e.1.Words)
    (hn : p.Pairwise fun a b => ∀ l, a.1.Has l → b.1.Has l) (rest : List ℤ) :
    loadPoly (savePoly p ++ rest) = some (p, rest) := by
  rw [savePoly, List.cons_append, loadPoly, Int.toNat_natCast]
  have := loadTerms_spec p Mono.one [] rest hp hw Mono.wf_one (fun _ _ _ ⟨_, h⟩ => nomatch h) hn
  exact this

/-- **C88**, refuted: `x + y` is read back as `x + x y`. -/
theorem C88_wrong {x y : Letter} (hx : x < 2 ^ 64) (hy : y < 2 ^ 64) (hxy : x < y) :
    Poly.WF [(⟨[(x, 1)]⟩, 1), (⟨[(y, 1)]⟩, 1)] ∧
      loadPoly (savePoly [(⟨[(x, 1)]⟩, 1), (⟨[(y, 1)]⟩, 1)]) =
        some ([(⟨[(x, 1)]⟩, 1), (⟨[(x, 1), (y, 1)]⟩, 1)], []) := by
  have hlt : ∀ {a b : Mono}, Mono.lt a b = true → a < b := fun h => (Mono.lt_iff _ _).1 h
  constructor
  · refine ⟨?_, ?_⟩
    · rw [SMap.Sorted, List.pairwise_pair]
      apply hlt
      simp [Mono.lt, Mono.degree, Mono.entriesLt, hxy]
    · intro e he
      simp only [List.mem_cons, List.not_mem_nil, or_false] at he
      rcases he with rfl | rfl <;> simp [Mono.WF, SMap.Sorted]
  · have h1 : loadMono Mono.one (saveMono ⟨[(x, 1)]⟩ ++ (1 :: 1 :: (saveMono ⟨[(y, 1)]⟩ ++ [1, 1]))) =
        some (⟨[(x, 1)]⟩, 1 :: 1 :: (saveMono ⟨[(y, 1)]⟩ ++ [1, 1])) :=
      C88_monomial (by simp [Mono.WF, SMap.Sorted]) (by simpa [Mono.Words] using hx) _
    have h2 : loadMono ⟨[(x, 1)]⟩ (saveMono ⟨[(y, 1)]⟩ ++ [1, 1]) =
        some (⟨[(x, 1), (y, 1)]⟩, [1, 1]) := by
      rw [saveMono, List.cons_append, loadMono, Int.toNat_natCast,
        loadEntries_spec _ (by simpa using hy)]
      simp [SMap.set, ne_of_gt hxy, not_lt_of_gt hxy]
    have e : savePoly [(⟨[(x, 1)]⟩, 1), (⟨[(y, 1)]⟩, 1)] =
        2 :: (saveMono ⟨[(x, 1)]⟩ ++ (1 :: 1 :: (saveMono ⟨[(y, 1)]⟩ ++ [1, 1]))) := by
      simp [savePoly]
    rw [e, loadPoly]
    have h2' : (2 : ℤ).toNat = 2 := rfl
    rw [h2', loadTerms, h1]
    dsimp only
    rw [loadTerms, h2]
    dsimp only
    rw [loadTerms]
    have h3 : Poly.modify Poly.zero ⟨[(x, 1)]⟩ (fun _ => ((1 : ℤ) / (1 : ℤ) : ℚ)) =
        [(⟨[(x, 1)]⟩, 1)] := by
      rw [Poly.zero, modify_last (by simp) (by simp)]; simp
    rw [h3, modify_last _ (by simp)]
    · simp
    · intro z hz
      simp only [List.mem_singleton] at hz
      subst hz
      apply hlt
      simp [Mono.lt, Mono.degree]

/-- `1 + 2 x + x^2 / 3` is read back -/
example : loadPoly (savePoly [(Mono.one, 1), (⟨[(5, 1)]⟩, 2), (⟨[(5, 2)]⟩, 1 / 3)]) =
    some ([(Mono.one, 1), (⟨[(5, 1)]⟩, 2), (⟨[(5, 2)]⟩, 1 / 3)], []) := by decide +kernel

end RoughPy.Polys
