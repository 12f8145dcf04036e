import Verif.Poly.Lemmas
import Mathlib.Tactic.NormNum

/-! # Properties of indeterminates, monomials and polynomials -/

namespace RoughPy.Polys

open RoughPy.Lite

/-! ## C81: names of indeterminates -/

theorem parseIndex_digits {U : Unicode} (hU : U.Ascii) (ds : List ℕ) (hd : ∀ d ∈ ds, d < 10) :
    ∀ n, ds.foldl (fun n d => n * 10 + d) n < 2 ^ 64 →
      parseIndex U (ds.map (48 + ·)) n = some (ds.foldl (fun n d => n * 10 + d) n) := by
  induction ds with
  | nil => intro n _; rfl
  | cons d ds ih =>
    intro n hn
    have hmono : ∀ (l : List ℕ) (k : ℕ), k ≤ l.foldl (fun n d => n * 10 + d) k := by
      intro l
      induction l with
      | nil => intro k; exact le_refl _
      | cons x l ih => intro k; rw [List.foldl_cons]; exact le_trans (by omega) (ih _)
    rw [List.foldl_cons] at hn
    have hlt : n * 10 + d < 2 ^ 64 := lt_of_le_of_lt (hmono ds _) hn
    rw [List.map_cons, parseIndex, hU.digit d (hd d (List.mem_cons_self ..))]
    dsimp only
    rw [Nat.mod_eq_of_lt (a := n * 10) (by omega), Nat.mod_eq_of_lt hlt, List.foldl_cons]
    exact ih (fun x hx => hd x (List.mem_cons_of_mem _ hx)) _ hn

theorem parse_name {U : Unicode} (hU : U.Ascii) {c : ℕ} (hc : asciiLetter c) {ds : List ℕ}
    (hd : ∀ d ∈ ds, d < 10) (hn : decimal ds < 2 ^ 56) :
    parseLetter U (name c ds) = some (c * 2 ^ 56 + decimal ds) := by
  have h64 : decimal ds < 2 ^ 64 := by omega
  rw [name, parseLetter, hU.alpha c hc, parseIndex_digits hU ds hd 0 h64]
  simp only [Bool.not_true, Bool.false_eq_true, if_false]
  have hc' : c < 256 := by unfold asciiLetter at hc; omega
  rw [mkLetter, Nat.mod_eq_of_lt hc', indexRange]
  have : decimal ds % 2 ^ 56 = decimal ds := Nat.mod_eq_of_lt hn
  rw [← decimal, this]

/-- **C81** (in part).  Names made of an ASCII letter and digits with a value below `2^56` denote
the same indeterminate exactly if their letters are the same and their digits have the same
value.  Missing: other letters and larger values, for which the statement is false. -/
theorem C81_distinct_partial {U : Unicode} (hU : U.Ascii) {c c' : ℕ} (hc : asciiLetter c)
    (hc' : asciiLetter c') {ds ds' : List ℕ} (hd : ∀ d ∈ ds, d < 10) (hd' : ∀ d ∈ ds', d < 10)
    (hn : decimal ds < 2 ^ 56) (hn' : decimal ds' < 2 ^ 56) :
    (∃ l, parseLetter U (name c ds) = some l) ∧
      (parseLetter U (name c ds) = parseLetter U (name c' ds') ↔
        c = c' ∧ decimal ds = decimal ds') := by
  rw [parse_name hU hc hd hn, parse_name hU hc' hd' hn']
  refine ⟨⟨_, rfl⟩, ?_⟩
  rw [Option.some.injEq]
  constructor
  · intro h
    have h : (c * 2 ^ 56 + decimal ds : ℕ) = c' * 2 ^ 56 + decimal ds' := h
    omega
  · rintro ⟨rfl, h⟩; rw [h]

theorem digitsOf_decimal (n : ℕ) :
    ∃ ds : List ℕ, digitsOf n = ds.map (48 + ·) ∧ (∀ d ∈ ds, d < 10) ∧ decimal ds = n := by
  induction n using Nat.strong_induction_on with
  | _ n ih =>
    rw [digitsOf]
    split_ifs with h
    · exact ⟨[n], rfl, by simpa using h, by simp [decimal]⟩
    · obtain ⟨ds, h1, h2, h3⟩ := ih (n / 10) (by omega)
      refine ⟨ds ++ [n % 10], by simp [h1], ?_, ?_⟩
      · intro d hd
        rcases List.mem_append.1 hd with hd | hd
        · exact h2 d hd
        · simp only [List.mem_singleton] at hd; omega
      · rw [decimal, List.foldl_append]
        rw [decimal] at h3
        rw [h3]
        simp only [List.foldl_cons, List.foldl_nil]
        omega

/-- **C81** (in part).  The printed name of an indeterminate with an ASCII letter is read back as
the same indeterminate. -/
theorem C81_print_partial {U : Unicode} (hU : U.Ascii) {c i : ℕ} (hc : asciiLetter c)
    (hi : i < 2 ^ 56) :
    parseLetter U (showLetter (mkLetter c i)) = some (mkLetter c i) := by
  have hc' : c < 256 := by unfold asciiLetter at hc; omega
  have hl : mkLetter c i = c * 2 ^ 56 + i := by
    rw [mkLetter, Nat.mod_eq_of_lt hc', indexRange]
    have : i % 2 ^ 56 = i := Nat.mod_eq_of_lt hi
    rw [this]
  have h1 : Letter.symbol (mkLetter c i) = c := by rw [hl, Letter.symbol, indexRange]; omega
  have h2 : Letter.index (mkLetter c i) = i := by rw [hl, Letter.index, indexRange]; omega
  obtain ⟨ds, e1, e2, e3⟩ := digitsOf_decimal i
  rw [showLetter, h1, h2, e1]
  have := parse_name hU hc e2 (by rw [e3]; exact hi)
  rw [name] at this
  rw [this, hl, e3]

/-- **C81**, refuted: the letter `š` (code point 353) makes the same indeterminate as `a`. -/
theorem C81_wrong_letter {U : Unicode} (hU : U.Ascii) (h : U.isAlpha 353 = true) :
    parseLetter U [353] = parseLetter U [97] := by
  rw [parseLetter, parseLetter, h, hU.alpha 97 (by unfold asciiLetter; omega)]
  rfl

/-- **C81**, refuted: `x72057594037927936` is the same indeterminate as `x0`. -/
theorem C81_wrong_index {U : Unicode} (hU : U.Ascii) :
    parseLetter U (name 120 [7, 2, 0, 5, 7, 5, 9, 4, 0, 3, 7, 9, 2, 7, 9, 3, 6]) =
      parseLetter U (name 120 [0]) := by
  rw [name, parseLetter, parseIndex_digits hU _ (by decide) 0 (by decide),
    name, parseLetter, parseIndex_digits hU _ (by decide) 0 (by decide)]
  rw [hU.alpha 120 (by unfold asciiLetter; omega)]
  decide

/-- a database that knows ASCII (and `š`) -/
def sampleUnicode : Unicode where
  isAlpha c := decide ((65 ≤ c ∧ c ≤ 90) ∨ (97 ≤ c ∧ c ≤ 122) ∨ c = 353)
  digit c := if 48 ≤ c ∧ c < 58 then some (c - 48) else none

theorem sampleUnicode_ascii : sampleUnicode.Ascii where
  alpha c h := by
    simp only [sampleUnicode, decide_eq_true_eq]
    unfold asciiLetter at h
    omega
  digit d h := by
    simp only [sampleUnicode]
    rw [if_pos (by omega)]
    congr 1
    omega

/-- the names `x12` and `x012`, and `y12` -/
example : parseLetter sampleUnicode (name 120 [1, 2]) = parseLetter sampleUnicode (name 120 [0, 1, 2])
    ∧ parseLetter sampleUnicode (name 120 [1, 2]) ≠ parseLetter sampleUnicode (name 121 [1, 2]) := by
  decide +kernel

/-! ## C82: products of monomials -/

/-- **C82** (in part).  The product of two monomials is defined exactly if every indeterminate
of the right factor but its last one occurs in the left factor, and then the exponents add.
Missing: all other products, for which the behaviour is undefined. -/
theorem C82_product_partial {m n : Mono} (hm : m.WF) :
    ((∃ r, Mono.mul m n = some r) ↔ m.SafeMul n) ∧
      ∀ r, Mono.mul m n = some r → r.WF ∧ r.exps = m.exps + n.exps :=
  ⟨Mono.mul_defined hm, fun _ h => Mono.mul_spec hm h⟩

/-- **C82**, refuted: the product of `x` and `y z` is undefined. -/
theorem C82_wrong {x y z : Letter} (hxy : x < y) (hyz : y < z) (a b c : ℤ) :
    (Mono.mk [(y, b), (z, c)]).WF ∧ Mono.mul (Mono.ofLetter x a) ⟨[(y, b), (z, c)]⟩ = none := by
  refine ⟨by simp [Mono.WF, SMap.Sorted, hyz], ?_⟩
  by_contra h
  obtain ⟨r, hr⟩ := Option.ne_none_iff_exists'.1 h
  obtain ⟨d, hd⟩ := (Mono.mul_defined (Mono.wf_ofLetter x a)).1 ⟨r, hr⟩ (y, b) (by simp)
  simp only [Mono.ofLetter, List.mem_singleton, Prod.mk.injEq] at hd
  exact absurd hd.1.symm (ne_of_lt hxy)

/-- the exponents asked for by the items of a constructor call: the sum of the powers given for
each name; `none` if one of the items is wrong -/
noncomputable def wanted (U : Unicode) : List (Option (List ℕ × ℤ)) → Option Exps
  | [] => some 0
  | none :: _ => none
  | some (nm, pow) :: rest =>
    match parseLetter U nm, wanted U rest with
    | some l, some e => some (Finsupp.single l pow + e)
    | _, _ => none

/-- **C82** (in part).  Making a monomial from names and powers is defined; it fails exactly if
an item is wrong, and otherwise every indeterminate has the sum of the powers given for it. -/
theorem C82_construct {U : Unicode} (items : List (Option (List ℕ × ℤ))) {m : Mono}
    (hm : m.WF) :
    (wanted U items = none → newMonomial U items m = some none) ∧
    ∀ e, wanted U items = some e →
      ∃ r, newMonomial U items m = some (some r) ∧ r.WF ∧ r.exps = m.exps + e := by
  induction items generalizing m with
  | nil =>
    refine ⟨fun h => (nomatch h), fun e h => ?_⟩
    simp only [wanted, Option.some.injEq] at h
    exact ⟨m, rfl, hm, by rw [← h, add_zero]⟩
  | cons it items ih =>
    cases it with
    | none => exact ⟨fun _ => rfl, fun e h => (nomatch h)⟩
    | some p =>
      obtain ⟨nm, pow⟩ := p
      rw [wanted, newMonomial]
      cases hl : parseLetter U nm with
      | none => exact ⟨fun _ => rfl, fun e h => (nomatch h)⟩
      | some l =>
        obtain ⟨r, hr, hwf, hexp⟩ := Mono.mul_ofLetter hm l pow
        simp only [hr]
        have := ih hwf
        cases hw : wanted U items with
        | none => exact ⟨fun _ => this.1 hw, fun e h => (nomatch h)⟩
        | some e' =>
          refine ⟨fun h => (nomatch h), fun e h => ?_⟩
          simp only [Option.some.injEq] at h
          obtain ⟨s, hs, hs1, hs2⟩ := this.2 e' hw
          exact ⟨s, hs, hs1, by rw [hs2, hexp, ← h, add_assoc]⟩

/-- `Monomial([("x", 2), "y", "x"])` -/
example : newMonomial sampleUnicode [some ([120], 2), some ([121], 1), some ([120], 1)] Mono.one =
    some (some ⟨[(mkLetter 120 0, 3), (mkLetter 121 0, 1)]⟩) := by decide +kernel

/-- `x y^2` times `x^3 z`: defined -/
example : Mono.mul ⟨[(1, 1), (2, 2)]⟩ ⟨[(1, 3), (3, 1)]⟩ = some ⟨[(1, 4), (2, 2), (3, 1)]⟩ := by
  decide +kernel

/-- **C82** (in part).  The product of keys used in products of polynomials is always defined,
is a single key with coefficient one, and adds exponents. -/
theorem C82_keys {m : Mono} (hm : m.WF) (n : Mono) :
    ∃ r, Mono.keyProduct m n = [(r, 1)] ∧ r.WF ∧ r.exps = m.exps + n.exps :=
  Mono.keyProduct_spec hm n

/-! ## C83: arithmetic of polynomials -/

theorem toRat_num {v : PyVal} {q : ℚ} (h : IsNum v q) : toRat v = .yes q := by
  have hin : ∀ {n : ℤ}, fits n → inLong n = true := by
    intro n hn
    simp only [inLong, Bool.and_eq_true, decide_eq_true_eq]
    exact hn
  cases h with
  | int hn => simp [toRat, hin hn]
  | float => rfl
  | frac hn hd => simp [toRat, hin hn, hin hd]

theorem num_cases {v : PyVal} {q : ℚ} (h : IsNum v q) {P : PyVal → Prop}
    (h1 : ∀ n, toRat (.int n) = .yes q → P (.int n))
    (h2 : ∀ x, toRat (.float x) = .yes q → P (.float x))
    (h3 : ∀ n d, toRat (.frac n d) = .yes q → P (.frac n d)) : P v := by
  have ht := toRat_num h
  cases h with
  | int hn => exact h1 _ ht
  | float => exact h2 _ ht
  | frac hn hd => exact h3 _ _ ht

theorem term_const_mul (e : Exps) (c : ℚ) : term e c = const c * term e 1 := by
  rw [const, term_mul, zero_add, mul_one]

/-- the operators whose slots have the common shape -/
theorem linear_op {op : Op} {pop : Poly → Poly → Poly} {f : Laurent → Laurent → Laurent}
    (hpoly : polySlot op = polynomialOp pop)
    (hpop : ∀ {p q : Poly}, p.WF → q.WF → (pop p q).WF ∧ (pop p q).val = f p.val q.val)
    (hmm : ∀ {m n : Mono}, m.WF → n.WF →
      ∃ v, monoSlot op (.mono m) (.mono n) = .ok v ∧ v.WF ∧ Means v (f (term m.exps 1) (term n.exps 1)))
    (hms : ∀ {m : Mono} {v : PyVal} {q : ℚ}, m.WF → IsNum v q →
      ∃ w, monoSlot op (.mono m) v = .ok w ∧ w.WF ∧ Means w (f (term m.exps 1) (const q)))
    (hsm : ∀ {m : Mono} {v : PyVal} {q : ℚ}, m.WF → IsNum v q →
      ∃ w, monoSlot op v (.mono m) = .ok w ∧ w.WF ∧ Means w (f (const q) (term m.exps 1)))
    (hmp : ∀ {m : Mono} {p : Poly}, monoSlot op (.mono m) (.poly p) = .notImpl)
    {a b : PyVal} {x y : Laurent} (ha : a.WF) (hb : b.WF) (hs : a.symbolic ∨ b.symbolic)
    (hx : Means a x) (hy : Means b y) :
    ∃ v, binaryOp op a b = .ok v ∧ v.WF ∧ Means v (f x y) := by
  have hpok : ∀ {p q : Poly}, p.WF → q.WF → PyVal.WF (.poly (pop p q)) ∧
      Means (.poly (pop p q)) (f p.val q.val) := fun hp hq =>
    ⟨(hpop hp hq).1, (hpop hp hq).2 ▸ Means.poly⟩
  cases hx with
  | num hq =>
    cases hy with
    | num hr =>
      exfalso
      cases hq <;> cases hr <;> simp [PyVal.symbolic] at hs
    | @mono m =>
      obtain ⟨w, h1, h2, h3⟩ := hsm (m := m) hb hq
      refine ⟨w, ?_, h2, h3⟩
      have hnone : slotOf a = none := by cases hq <;> rfl
      have hty : sameType a (.mono m) = false := by cases hq <;> rfl
      rw [binaryOp, hnone]
      simp only [binaryRight, slotOf, hty, Bool.false_eq_true, if_false, h1]
    | @poly p =>
      have hnone : slotOf a = none := by cases hq <;> rfl
      have hty : sameType a (.poly p) = false := by cases hq <;> rfl
      rename_i q
      have hos := Poly.ofScalar_spec q
      have hr : polynomialOp pop a (.poly p) = .ok (.poly (pop (Poly.ofScalar q) p)) :=
        num_cases hq (P := fun a => polynomialOp pop a (.poly p) = .ok (.poly (pop (Poly.ofScalar q) p)))
          (fun n h => by simp [polynomialOp, withRat, h]) (fun n h => by simp [polynomialOp, withRat, h])
          (fun n d h => by simp [polynomialOp, withRat, h])
      refine ⟨.poly (pop (Poly.ofScalar q) p), ?_, ?_⟩
      · rw [binaryOp, hnone]
        simp only [binaryRight, slotOf, hty, Bool.false_eq_true, if_false, hpoly, hr]
      · have := hpok hos.1 hb
        rw [hos.2] at this
        exact this
  | @mono m =>
    cases hy with
    | num hq =>
      obtain ⟨w, h1, h2, h3⟩ := hms (m := m) ha hq
      exact ⟨w, by simp only [binaryOp, slotOf, h1], h2, h3⟩
    | @mono n =>
      obtain ⟨w, h1, h2, h3⟩ := hmm (m := m) (n := n) ha hb
      exact ⟨w, by simp only [binaryOp, slotOf, h1], h2, h3⟩
    | @poly p =>
      have hos := Poly.ofMono_spec (m := m) ha 1
      refine ⟨.poly (pop (Poly.ofMono m 1) p), ?_, ?_⟩
      · simp only [binaryOp, slotOf, hmp, binaryRight, sameType, Bool.false_eq_true, if_false, hpoly,
          polynomialOp]
      · have := hpok hos.1 hb
        rw [hos.2] at this
        exact this
  | @poly p =>
    cases hy with
    | num hq =>
      rename_i q
      have hos := Poly.ofScalar_spec q
      have hr : polynomialOp pop (.poly p) b = .ok (.poly (pop p (Poly.ofScalar q))) :=
        num_cases hq (P := fun b => polynomialOp pop (.poly p) b = .ok (.poly (pop p (Poly.ofScalar q))))
          (fun n h => by simp [polynomialOp, withRat, h]) (fun n h => by simp [polynomialOp, withRat, h])
          (fun n d h => by simp [polynomialOp, withRat, h])
      refine ⟨.poly (pop p (Poly.ofScalar q)), ?_, ?_⟩
      · simp only [binaryOp, slotOf, hpoly, hr]
      · have := hpok ha hos.1
        rw [hos.2] at this
        exact this
    | @mono n =>
      have hos := Poly.ofMono_spec (m := n) hb 1
      refine ⟨.poly (pop p (Poly.ofMono n 1)), ?_, ?_⟩
      · simp only [binaryOp, slotOf, hpoly, polynomialOp]
      · have := hpok ha hos.1
        rw [hos.2] at this
        exact this
    | @poly q =>
      refine ⟨.poly (pop p q), ?_, hpok ha hb⟩
      simp only [binaryOp, slotOf, hpoly, polynomialOp]

/-- the value described by a dictionary of monomials and numbers -/
inductive DictMeans : List (PyVal × PyVal) → Laurent → Prop
  | nil : DictMeans [] 0
  | cons {m : Mono} {v : PyVal} {q : ℚ} {rest : List (PyVal × PyVal)} {x : Laurent} :
      m.WF → IsNum v q → DictMeans rest x → DictMeans ((.mono m, v) :: rest) (term m.exps q + x)

theorem fillPoly_spec {dict : List (PyVal × PyVal)} {x : Laurent} (h : DictMeans dict x) :
    ∀ {p : Poly}, p.WF → ∃ q : Poly, fillPoly dict p = .ok (.poly q) ∧ q.WF ∧ q.val = p.val + x := by
  induction h with
  | nil => intro p hp; exact ⟨p, rfl, hp, (add_zero _).symm⟩
  | @cons m v q rest x hm hv _ ih =>
    intro p hp
    have h1 := Poly.ofMono_spec hm q
    have h2 := Poly.add_spec hp h1.1
    obtain ⟨r, h3, h4, h5⟩ := ih h2.1
    refine ⟨r, ?_, h4, ?_⟩
    · simp only [fillPoly, toRat_num hv]
      exact h3
    · rw [h5, h2.2, h1.2, add_assoc]

/-- **C83**.  A polynomial made from a dictionary is the sum of its terms. -/
theorem C83_construct {dict : List (PyVal × PyVal)} {x : Laurent} (h : DictMeans dict x) :
    ∃ v, newPolynomial dict = .ok v ∧ v.WF ∧ Means v x := by
  obtain ⟨q, h1, h2, h3⟩ := fillPoly_spec h Poly.wf_nil
  refine ⟨.poly q, h1, h2, ?_⟩
  have : q.val = x := by
    rw [h3]
    simp [Poly.val]
  exact this ▸ Means.poly

example : newPolynomial [(.mono ⟨[(1, 1)]⟩, .int 2), (.mono Mono.one, .frac 1 3)] =
    .ok (.poly [(Mono.one, 1 / 3), (⟨[(1, 1)]⟩, 2)]) := by decide +kernel

/-- **C83**.  `a + b` is the sum, whenever one of the operands is a monomial or a polynomial and
the other one is one of these or a number. -/
theorem C83_add {a b : PyVal} {x y : Laurent} (ha : a.WF) (hb : b.WF)
    (hs : a.symbolic ∨ b.symbolic) (hx : Means a x) (hy : Means b y) :
    ∃ v, binaryOp .add a b = .ok v ∧ v.WF ∧ Means v (x + y) := by
  refine linear_op (op := .add) (pop := Poly.add) (f := fun x y => x + y) rfl
    (fun hp hq => Poly.add_spec hp hq) ?_ ?_ ?_ rfl ha hb hs hx hy
  · intro m n hm hn
    have h1 := Poly.ofMono_spec hm 1
    have h2 := Poly.modify_spec h1.1 hn (fun x => x + 1)
    refine ⟨_, rfl, h2.1, ?_⟩
    have h3 : Poly.val (Poly.modify (Poly.ofMono m 1) n fun x => x + 1) =
        term m.exps 1 + term n.exps 1 := by
      rw [h2.2, h1.2]; congr 2; ring
    rw [← h3]; exact .poly
  · intro m v q hm hq
    have h1 := Poly.ofMono_spec hm 1
    have h2 := Poly.ofScalar_spec q
    have h3 := Poly.add_spec h1.1 h2.1
    rw [h1.2, h2.2] at h3
    refine ⟨.poly (Poly.add (Poly.ofMono m 1) (Poly.ofScalar q)), ?_, h3.1, h3.2 ▸ .poly⟩
    exact num_cases hq (P := fun v => monoSlot .add (.mono m) v =
        .ok (.poly (Poly.add (Poly.ofMono m 1) (Poly.ofScalar q))))
      (fun n h => by simp [monoSlot, monomialAdd, withRat, h])
      (fun n h => by simp [monoSlot, monomialAdd, withRat, h])
      (fun n d h => by simp [monoSlot, monomialAdd, withRat, h])
  · intro m v q hm hq
    have h1 := Poly.ofMono_spec hm 1
    have h2 := Poly.ofScalar_spec q
    have h3 := Poly.add_spec h2.1 h1.1
    rw [h1.2, h2.2] at h3
    refine ⟨.poly (Poly.add (Poly.ofScalar q) (Poly.ofMono m 1)), ?_, h3.1, h3.2 ▸ .poly⟩
    exact num_cases hq (P := fun v => monoSlot .add v (.mono m) =
        .ok (.poly (Poly.add (Poly.ofScalar q) (Poly.ofMono m 1))))
      (fun n h => by simp [monoSlot, monomialAdd, withRat, h])
      (fun n h => by simp [monoSlot, monomialAdd, withRat, h])
      (fun n d h => by simp [monoSlot, monomialAdd, withRat, h])

/-- **C83**.  `a - b` is the difference. -/
theorem C83_sub {a b : PyVal} {x y : Laurent} (ha : a.WF) (hb : b.WF)
    (hs : a.symbolic ∨ b.symbolic) (hx : Means a x) (hy : Means b y) :
    ∃ v, binaryOp .sub a b = .ok v ∧ v.WF ∧ Means v (x - y) := by
  refine linear_op (op := .sub) (pop := Poly.sub) (f := fun x y => x - y) rfl
    (fun hp hq => Poly.sub_spec hp hq) ?_ ?_ ?_ rfl ha hb hs hx hy
  · intro m n hm hn
    have h1 := Poly.ofMono_spec hm 1
    have h2 := Poly.modify_spec h1.1 hn (fun x => x - 1)
    refine ⟨_, rfl, h2.1, ?_⟩
    have h3 : Poly.val (Poly.modify (Poly.ofMono m 1) n fun x => x - 1) =
        term m.exps 1 - term n.exps 1 := by
      rw [h2.2, h1.2, sub_eq_add_neg (term m.exps 1), ← term_neg]; congr 2; ring
    rw [← h3]; exact .poly
  · intro m v q hm hq
    have h1 := Poly.ofMono_spec hm 1
    have h2 := Poly.ofScalar_spec q
    have h3 := Poly.sub_spec h1.1 h2.1
    rw [h1.2, h2.2] at h3
    refine ⟨.poly (Poly.sub (Poly.ofMono m 1) (Poly.ofScalar q)), ?_, h3.1, h3.2 ▸ .poly⟩
    exact num_cases hq (P := fun v => monoSlot .sub (.mono m) v =
        .ok (.poly (Poly.sub (Poly.ofMono m 1) (Poly.ofScalar q))))
      (fun n h => by simp [monoSlot, monomialSub, withRat, h])
      (fun n h => by simp [monoSlot, monomialSub, withRat, h])
      (fun n d h => by simp [monoSlot, monomialSub, withRat, h])
  · intro m v q hm hq
    have h1 := Poly.ofMono_spec hm 1
    have h2 := Poly.ofScalar_spec q
    have h3 := Poly.sub_spec h2.1 h1.1
    rw [h1.2, h2.2] at h3
    refine ⟨.poly (Poly.sub (Poly.ofScalar q) (Poly.ofMono m 1)), ?_, h3.1, h3.2 ▸ .poly⟩
    exact num_cases hq (P := fun v => monoSlot .sub v (.mono m) =
        .ok (.poly (Poly.sub (Poly.ofScalar q) (Poly.ofMono m 1))))
      (fun n h => by simp [monoSlot, monomialSub, withRat, h])
      (fun n h => by simp [monoSlot, monomialSub, withRat, h])
      (fun n d h => by simp [monoSlot, monomialSub, withRat, h])

/-- **C83** (in part).  `a * b` is the product.  Missing: products of two monomials that are
undefined, see `C82_product_partial`. -/
theorem C83_mul_partial {a b : PyVal} {x y : Laurent} (ha : a.WF) (hb : b.WF)
    (hs : a.symbolic ∨ b.symbolic) (hx : Means a x) (hy : Means b y)
    (hsafe : ∀ m n, a = .mono m → b = .mono n → m.SafeMul n) :
    ∃ v, binaryOp .mul a b = .ok v ∧ v.WF ∧ Means v (x * y) := by
  by_cases hmm : ∃ m n, a = .mono m ∧ b = .mono n
  · obtain ⟨m, n, rfl, rfl⟩ := hmm
    obtain ⟨r, hr⟩ := (Mono.mul_defined (m := m) (n := n) ha).2 (hsafe m n rfl rfl)
    have h := Mono.mul_spec (m := m) ha hr
    refine ⟨.mono r, ?_, h.1, ?_⟩
    · simp only [binaryOp, slotOf, monoSlot, monomialMul, hr]
    · have e1 : x = term m.exps 1 := by
        cases hx with
        | num h => cases h
        | mono => rfl
      have e2 : y = term n.exps 1 := by
        cases hy with
        | num h => cases h
        | mono => rfl
      rw [e1, e2, term_mul, ← h.2, mul_one]
      exact .mono
  · have key : ∀ {a b : PyVal} {x y : Laurent}, a.WF → b.WF → (a.symbolic ∨ b.symbolic) →
        Means a x → Means b y → (∃ m n, a = .mono m ∧ b = .mono n) ∨
          ∃ v, binaryOp .mul a b = .ok v ∧ v.WF ∧ Means v (x * y) := by
      intro a b x y ha hb hs hx hy
      by_cases hmm : ∃ m n, a = .mono m ∧ b = .mono n
      · exact .inl hmm
      right
      have hms : ∀ {m : Mono} {v : PyVal} {q : ℚ}, m.WF → IsNum v q →
          monoSlot .mul (.mono m) v = .ok (.poly (Poly.ofMono m q)) ∧
          monoSlot .mul v (.mono m) = .ok (.poly (Poly.ofMono m q)) := by
        intro m v q hm hq
        exact num_cases hq (P := fun v => monoSlot .mul (.mono m) v = .ok (.poly (Poly.ofMono m q)) ∧
            monoSlot .mul v (.mono m) = .ok (.poly (Poly.ofMono m q)))
          (fun n h => by simp [monoSlot, monomialMul, withRat, h])
          (fun n h => by simp [monoSlot, monomialMul, withRat, h])
          (fun n d h => by simp [monoSlot, monomialMul, withRat, h])
      cases hx with
      | num hq =>
        cases hy with
        | num hr =>
          exfalso
          cases hq <;> cases hr <;> simp [PyVal.symbolic] at hs
        | @mono m =>
          have hnone : slotOf a = none := by cases hq <;> rfl
          have hty : sameType a (.mono m) = false := by cases hq <;> rfl
          rename_i q
          have ho := Poly.ofMono_spec (m := m) hb q
          refine ⟨.poly (Poly.ofMono m q), ?_, ho.1, ?_⟩
          · rw [binaryOp, hnone]
            simp only [binaryRight, slotOf, hty, Bool.false_eq_true, if_false,
              (hms (m := m) hb hq).2]
          · rw [← term_const_mul, ← ho.2]; exact .poly
        | @poly p =>
          have hnone : slotOf a = none := by cases hq <;> rfl
          have hty : sameType a (.poly p) = false := by cases hq <;> rfl
          rename_i q
          have ho := Poly.ofScalar_spec q
          have h3 := Poly.mul_spec ho.1 hb
          rw [ho.2] at h3
          have hr : polynomialMul a (.poly p) = .ok (.poly (Poly.mul (Poly.ofScalar q) p)) :=
            num_cases hq (P := fun a => polynomialMul a (.poly p) =
                .ok (.poly (Poly.mul (Poly.ofScalar q) p)))
              (fun n h => by simp [polynomialMul, polynomialOp, withRat, h])
              (fun n h => by simp [polynomialMul, polynomialOp, withRat, h])
              (fun n d h => by simp [polynomialMul, polynomialOp, withRat, h])
          refine ⟨.poly (Poly.mul (Poly.ofScalar q) p), ?_, h3.1, h3.2 ▸ .poly⟩
          rw [binaryOp, hnone]
          simp only [binaryRight, slotOf, hty, Bool.false_eq_true, if_false,
            polySlot, hr]
      | @mono m =>
        cases hy with
        | num hq =>
          rename_i q
          have ho := Poly.ofMono_spec (m := m) ha q
          refine ⟨.poly (Poly.ofMono m q), ?_, ho.1, ?_⟩
          · simp only [binaryOp, slotOf, (hms (m := m) ha hq).1]
          · rw [mul_comm, ← term_const_mul, ← ho.2]; exact .poly
        | @mono n => exact absurd ⟨m, n, rfl, rfl⟩ hmm
        | @poly p =>
          have ho := Poly.ofMono_spec (m := m) ha 1
          have h3 := Poly.mul_spec ho.1 hb
          rw [ho.2] at h3
          refine ⟨.poly (Poly.mul (Poly.ofMono m 1) p), ?_, h3.1, h3.2 ▸ .poly⟩
          simp only [binaryOp, slotOf, monoSlot, monomialMul, withRat, toRat, binaryRight, sameType,
            Bool.false_eq_true, if_false, polySlot, polynomialMul, polynomialOp]
      | @poly p =>
        cases hy with
        | num hq =>
          rename_i q
          have ho := Poly.ofScalar_spec q
          have h3 := Poly.mul_spec ha ho.1
          rw [ho.2] at h3
          have hr : polynomialMul (.poly p) b = .ok (.poly (Poly.mul p (Poly.ofScalar q))) :=
            num_cases hq (P := fun b => polynomialMul (.poly p) b =
                .ok (.poly (Poly.mul p (Poly.ofScalar q))))
              (fun n h => by simp [polynomialMul, polynomialOp, withRat, h])
              (fun n h => by simp [polynomialMul, polynomialOp, withRat, h])
              (fun n d h => by simp [polynomialMul, polynomialOp, withRat, h])
          exact ⟨.poly (Poly.mul p (Poly.ofScalar q)), by simp only [binaryOp, slotOf, polySlot, hr], h3.1, h3.2 ▸ .poly⟩
        | @mono n =>
          have ho := Poly.ofMono_spec (m := n) hb 1
          have h3 := Poly.mul_spec ha ho.1
          rw [ho.2] at h3
          exact ⟨.poly (Poly.mul p (Poly.ofMono n 1)),
            by simp only [binaryOp, slotOf, polySlot, polynomialMul, polynomialOp], h3.1,
            h3.2 ▸ .poly⟩
        | @poly q =>
          have h3 := Poly.mul_spec ha hb
          exact ⟨.poly (Poly.mul p q),
            by simp only [binaryOp, slotOf, polySlot, polynomialMul, polynomialOp], h3.1,
            h3.2 ▸ .poly⟩
    exact (key ha hb hs hx hy).resolve_left hmm

/-- **C83**.  Dividing a monomial or a polynomial by a number multiplies it by the reciprocal, and
raises an exception for zero. -/
theorem C83_div {a b : PyVal} {x : Laurent} {q : ℚ} (ha : a.WF) (hs : a.symbolic)
    (hx : Means a x) (hb : IsNum b q) :
    (q = 0 → binaryOp .div a b = .raise) ∧
      (q ≠ 0 → ∃ v, binaryOp .div a b = .ok v ∧ v.WF ∧ Means v (const (1 / q) * x)) := by
  cases hx with
  | num h => cases h <;> simp [PyVal.symbolic] at hs
  | @mono m =>
    have hr : monomialDiv (.mono m) b =
        if q = 0 then .raise else .ok (.poly (Poly.ofMono m (1 / q))) :=
      num_cases hb (P := fun b => monomialDiv (.mono m) b =
          if q = 0 then .raise else .ok (.poly (Poly.ofMono m (1 / q))))
        (fun n h => by simp [monomialDiv, withRat, h]) (fun n h => by simp [monomialDiv, withRat, h])
        (fun n d h => by simp [monomialDiv, withRat, h])
    have ho := Poly.ofMono_spec (m := m) ha (1 / q)
    refine ⟨fun h => ?_, fun h => ⟨.poly (Poly.ofMono m (1 / q)), ?_, ho.1, ?_⟩⟩
    · simp only [binaryOp, slotOf, monoSlot, hr, if_pos h]
    · simp only [binaryOp, slotOf, monoSlot, hr, if_neg h]
    · rw [← term_const_mul, ← ho.2]; exact .poly
  | @poly p =>
    have hr : polynomialDiv (.poly p) b =
        if q = 0 then .raise else .ok (.poly (Poly.sdiv p q)) :=
      num_cases hb (P := fun b => polynomialDiv (.poly p) b =
          if q = 0 then .raise else .ok (.poly (Poly.sdiv p q)))
        (fun n h => by simp [polynomialDiv, withRat, h])
        (fun n h => by simp [polynomialDiv, withRat, h])
        (fun n d h => by simp [polynomialDiv, withRat, h])
    have ho := Poly.sdiv_spec (p := p) ha q
    refine ⟨fun h => ?_, fun h => ⟨.poly (Poly.sdiv p q), ?_, ho.1, ?_⟩⟩
    · simp only [binaryOp, slotOf, polySlot, hr, if_pos h]
    · simp only [binaryOp, slotOf, polySlot, hr, if_neg h]
    · rw [← ho.2]; exact .poly

theorem binaryOp_left {op : Op} {f : Op → PyVal → PyVal → Res} {a b v : PyVal}
    (h : slotOf a = some f) (h2 : f op a b = .ok v) : binaryOp op a b = .ok v := by
  rw [binaryOp, h]
  dsimp only
  rw [h2]

/-- **C83**.  Powers of polynomials with a nonnegative exponent. -/
theorem C83_pow {p : Poly} (hp : p.WF) {n : ℕ} (hn : fits n) :
    ∃ v, binaryOp .pow (.poly p) (.int n) = .ok v ∧ v.WF ∧ Means v (p.val ^ n) := by
  have hin : inLong (n : ℤ) = true := by
    simp only [inLong, Bool.and_eq_true, decide_eq_true_eq]
    exact hn
  have hin' : ¬(!inLong (n : ℤ)) = true := by rw [hin]; exact Bool.false_ne_true
  have hneg : ¬((n : ℤ) < 0) := by omega
  by_cases h0 : n = 0
  · have h0' : (n : ℤ) = 0 := by omega
    have ho := Poly.ofScalar_spec 1
    refine ⟨.poly (Poly.ofScalar 1), ?_, ho.1, ?_⟩
    · have : polynomialPow (.poly p) (.int n) = .ok (.poly (Poly.ofScalar 1)) := by
        rw [polynomialPow, if_neg hin', if_neg hneg, if_pos h0']
      exact binaryOp_left rfl this
    · rw [h0, pow_zero, ← Poly.const_one, ← ho.2]; exact .poly
  · have h0' : ¬((n : ℤ) = 0) := by omega
    have ho := Poly.powLoop_spec hp (n - 1) hp
    refine ⟨.poly (Poly.powLoop p (n - 1) p), ?_, ho.1, ?_⟩
    · have : polynomialPow (.poly p) (.int n) = .ok (.poly (Poly.powLoop p (n - 1) p)) := by
        rw [polynomialPow, if_neg hin', if_neg hneg, if_neg h0', Int.toNat_natCast]
      exact binaryOp_left rfl this
    · rw [← pow_succ', show n - 1 + 1 = n by omega] at ho
      rw [← ho.2]; exact .poly

/-- **C83**.  Negation of monomials and polynomials. -/
theorem C83_neg {m : Mono} {p : Poly} (hm : m.WF) (hp : p.WF) :
    Means (monomialNeg m) (-term m.exps 1) ∧ Means (polynomialNeg p) (-p.val) := by
  refine ⟨?_, ?_⟩
  · rw [← term_neg, ← (Poly.ofMono_spec hm (-1)).2]; exact .poly
  · rw [← (Poly.neg_spec hp).2]; exact .poly

/-- **C83** (in part).  Two monomials, and two polynomials, compare equal exactly if they stand for
the same, if all indeterminates listed in them occur.  Missing: monomials with explicit zero
exponents, and comparison of a monomial with a polynomial. -/
theorem C83_eq_partial :
    (∀ {m n : Mono}, m.WF → n.WF → m.Proper → n.Proper →
      (pyEq (.mono m) (.mono n) = true ↔ m.exps = n.exps)) ∧
    (∀ {p q : Poly}, p.WF → q.WF → p.Proper → q.Proper →
      (pyEq (.poly p) (.poly q) = true ↔ p.val = q.val)) := by
  refine ⟨fun {m n} hm hn pm pn => ?_, fun {p q} hp hq pp pq => ?_⟩
  · rw [pyEq, monomialCompare, Mono.beq_iff]
    exact ⟨fun h => by rw [h], Mono.exps_inj hm hn pm pn⟩
  · rw [pyEq, Poly.beq_iff hp hq]
    exact ⟨fun h => by rw [h], Poly.val_inj hp hq pp pq⟩

/-- **C83**, refuted: a monomial with an indeterminate set to exponent zero stands for the same as
one without, and is not equal to it; a monomial is not equal to the polynomial it stands for. -/
theorem C83_wrong_eq {m : Mono} (hm : m.WF) {l : Letter} (hn : ¬m.Has l) :
    ((m.set l 0).WF ∧ (m.set l 0).exps = m.exps ∧ pyEq (.mono (m.set l 0)) (.mono m) = false) ∧
      (∃ v, binaryOp .mul (.mono m) (.int 1) = .ok v ∧ Means v (term m.exps 1) ∧
        pyEq v (.mono m) = false) := by
  have hf : SMap.find m.entries l = none := by
    cases hf : SMap.find m.entries l with
    | none => rfl
    | some d => exact absurd ⟨d, SMap.mem_of_find hf⟩ hn
  refine ⟨⟨SMap.sorted_set hm _ _, ?_, ?_⟩, ?_⟩
  · have := Mono.exps_bump hm l 0
    rw [hf, add_zero, Finsupp.single_zero, add_zero] at this
    exact this
  · rw [pyEq, monomialCompare, Bool.eq_false_iff, Ne, Mono.beq_iff]
    intro hc
    have h1 : SMap.find (m.set l 0).entries l = some 0 := by
      rw [Mono.set, SMap.find_set hm, if_pos rfl]
    rw [hc, hf] at h1
    cases h1
  · have ho := Poly.ofMono_spec hm 1
    refine ⟨.poly (Poly.ofMono m 1), ?_, ho.2 ▸ .poly, rfl⟩
    simp [binaryOp, slotOf, monoSlot, monomialMul, withRat, toRat, inLong]

/-- `(x + 2) * (x - 2)` in terms of the operators -/
example : binaryOp .mul (.poly [(Mono.one, 2), (⟨[(1, 1)]⟩, 1)])
    (.poly [(Mono.one, -2), (⟨[(1, 1)]⟩, 1)]) =
    .ok (.poly [(Mono.one, -4), (⟨[(1, 2)]⟩, 1)]) := by decide +kernel

/-- `3 - x` -/
example : binaryOp .sub (.int 3) (.mono ⟨[(1, 1)]⟩) =
    .ok (.poly [(Mono.one, 3), (⟨[(1, 1)]⟩, -1)]) := by decide +kernel

/-- `(x + y)^2` -/
example : binaryOp .pow (.poly [(⟨[(1, 1)]⟩, 1), (⟨[(2, 1)]⟩, 1)]) (.int 2) =
    .ok (.poly [(⟨[(1, 1), (2, 1)]⟩, 2), (⟨[(1, 2)]⟩, 1), (⟨[(2, 2)]⟩, 1)]) := by decide +kernel

/-! ## C84: evaluation of monomials -/

/-- value of the monomial at given values of the indeterminates -/
def Mono.valueAt (m : Mono) (arg : Letter → ℚ) : ℚ :=
  (m.entries.map fun e => arg e.1 ^ e.2.toNat).prod

/-- **C84** (in part).  Evaluation of a power of a single indeterminate.  Missing: monomials with
no or several indeterminates, for which the statement is false. -/
theorem C84_eval_partial (l : Letter) (n : ℕ) (arg : Letter → ℚ) :
    (Mono.ofLetter l n).eval arg = arg l ^ n ∧
      (Mono.ofLetter l n).eval arg = (Mono.ofLetter l n).valueAt arg := by
  simp [Mono.eval, Mono.ofLetter, Mono.power_eq, Mono.valueAt]

/-- **C84**: what is computed is the sum of the powers. -/
theorem C84_sum (m : Mono) (arg : Letter → ℚ) :
    m.eval arg = (m.entries.map fun e => arg e.1 ^ e.2.toNat).sum := by
  have : ∀ (l : List (Letter × ℤ)) (c : ℚ),
      l.foldl (fun result e => result + Mono.power (arg e.1) e.2.toNat) c =
        c + (l.map fun e => arg e.1 ^ e.2.toNat).sum := by
    intro l
    induction l with
    | nil => simp
    | cons e l ih => intro c; rw [List.foldl_cons, ih]; simp [Mono.power_eq, add_assoc]
  rw [Mono.eval, this, zero_add]

/-- **C84**, refuted: the empty monomial is `0` everywhere, and `x y` at `x = y = 1` is `2`. -/
theorem C84_wrong (arg : Letter → ℚ) :
    Mono.one.eval arg ≠ Mono.one.valueAt arg ∧
      ∀ x y : Letter, x < y → (Mono.mk [(x, 1), (y, 1)]).eval (fun _ => 1) ≠
        (Mono.mk [(x, 1), (y, 1)]).valueAt (fun _ => 1) := by
  refine ⟨by simp [C84_sum, Mono.valueAt, Mono.one], fun x y _ => ?_⟩
  simp [C84_sum, Mono.valueAt]

example : (Mono.ofLetter 3 5).eval (fun _ => 2) = 32 := by
  have := (C84_eval_partial 3 5 (fun _ => 2)).1
  norm_num at this
  exact this

/-! ## C85: in-place operators give the value of the operator -/

/-- **C85** (in part).  `a op= b` binds the value of `a op b`, if `a` and `b` are different objects.
Missing: division and powers of monomials, for which the statement is false, and `p -= p`. -/
theorem C85_inplace_partial {a : PyVal} (b : PyVal) (op : Op) (ha : a.symbolic)
    (hop : ∀ m, a = .mono m → op ≠ .div ∧ op ≠ .pow) :
    rebind op false a b = binaryOp op a b := by
  cases a with
  | mono m =>
    obtain ⟨h1, h2⟩ := hop m rfl
    cases op with
    | div => exact absurd rfl h1
    | pow => exact absurd rfl h2
    | add =>
      cases b <;> simp [rebind, inplaceSlot, monomialIAdd, binaryOp, slotOf, monoSlot, monomialAdd,
        IRes.ofRes, withRat, toRat] <;> (try split_ifs) <;> simp
    | sub =>
      cases b <;> simp [rebind, inplaceSlot, monomialISub, binaryOp, slotOf, monoSlot, monomialSub,
        IRes.ofRes, withRat, toRat] <;> (try split_ifs) <;> simp
    | mul =>
      cases b with
      | mono n =>
        simp only [rebind, inplaceSlot, monomialIMul, binaryOp, slotOf, monoSlot, monomialMul]
        cases Mono.mul m n <;> rfl
      | _ =>
        simp [rebind, inplaceSlot, monomialIMul, binaryOp, slotOf, monoSlot, monomialMul,
          IRes.ofRes, withRat, toRat] <;> (try split_ifs) <;> simp
  | poly p =>
    cases op with
    | pow => rfl
    | div =>
      cases b <;> simp [rebind, inplaceSlot, polynomialIDiv, binaryOp, slotOf, polySlot,
        polynomialDiv, withRat, toRat, binaryRight, sameType, monoSlot, monomialDiv] <;>
        (try split_ifs) <;> (try simp) <;> (try split_ifs) <;> simp
    | add =>
      cases b <;> simp [rebind, inplaceSlot, polynomialIOp, binaryOp, slotOf, polySlot,
        polynomialAdd, polynomialOp, withRat, toRat] <;> (try split_ifs) <;> simp
    | sub =>
      cases b <;> simp [rebind, inplaceSlot, polynomialIOp, binaryOp, slotOf, polySlot,
        polynomialSub, polynomialOp, withRat, toRat] <;> (try split_ifs) <;> simp
    | mul =>
      cases b <;> simp [rebind, inplaceSlot, polynomialIOp, binaryOp, slotOf, polySlot,
        polynomialMul, polynomialOp, withRat, toRat, Poly.mulInplace_eq] <;> (try split_ifs) <;> simp
  | _ => exact absurd ha (by simp [PyVal.symbolic])

/-- **C85** (in part).  A polynomial with itself: `p += p` and `p *= p` are right. -/
theorem C85_self_partial {p : Poly} (hp : p.WF) :
    (∃ r, rebind .add true (.poly p) (.poly p) = .ok (.poly r) ∧ r.WF ∧ r.val = p.val + p.val) ∧
      ∃ r, rebind .mul true (.poly p) (.poly p) = .ok (.poly r) ∧ r.WF ∧ r.val = p.val * p.val := by
  obtain ⟨r, h1, h2, h3⟩ := Poly.addSelf_spec hp
  refine ⟨⟨r, ?_, h2, h3⟩, ⟨Poly.mulInplace p p, rfl, ?_⟩⟩
  · simp only [rebind, inplaceSlot, polynomialIOp, if_true, h1]
  · rw [Poly.mulInplace_eq]; exact Poly.mul_spec hp hp

/-- **C85**, refuted: `p -= p` is undefined for every polynomial but zero. -/
theorem C85_wrong_isub {p : Poly} (hp : p ≠ []) : rebind .sub true (.poly p) (.poly p) = .ub := by
  cases p with
  | nil => exact absurd rfl hp
  | cons e p =>
    obtain ⟨k, v⟩ := e
    simp [rebind, inplaceSlot, polynomialIOp, Poly.binarySelf]

/-- **C85**, refuted: `m /= c` multiplies by `c`. -/
theorem C85_wrong_div {m : Mono} (hm : m.WF) {b : PyVal} {q : ℚ} (hb : IsNum b q) (hq : q ≠ 0) :
    ∃ v, rebind .div false (.mono m) b = .ok v ∧ Means v (const q * term m.exps 1) := by
  have hr : monomialIDiv m b = ⟨.mono m, .new (.poly (Poly.ofMono m q))⟩ :=
    num_cases hb (P := fun b => monomialIDiv m b = ⟨.mono m, .new (.poly (Poly.ofMono m q))⟩)
      (fun n h => by simp [monomialIDiv, IRes.ofRes, withRat, h, hq])
      (fun n h => by simp [monomialIDiv, IRes.ofRes, withRat, h, hq])
      (fun n d h => by simp [monomialIDiv, IRes.ofRes, withRat, h, hq])
  have ho := Poly.ofMono_spec hm q
  refine ⟨.poly (Poly.ofMono m q), by simp only [rebind, inplaceSlot, hr], ?_⟩
  rw [← term_const_mul, ← ho.2]; exact .poly

/-- **C85**, refuted: `m ** n` raises an exception for all `m` and `n`, and `m **= n` does so after
adding `n` to every exponent of `m`. -/
theorem C85_wrong_pow (m : Mono) (n : ℕ) :
    binaryOp .pow (.mono m) (.int n) = .raise ∧ rebind .pow false (.mono m) (.int n) = .raise ∧
      (inplaceSlot .pow false (.mono m) (.int n)).selfAfter =
        .mono ⟨m.entries.map fun e => (e.1, e.2 + n)⟩ := by
  have h : ¬((n : ℤ) < 0) := by omega
  refine ⟨?_, ?_, ?_⟩
  · simp [binaryOp, slotOf, monoSlot, monomialPow, h, binaryRight]
  · simp [rebind, inplaceSlot, monomialIPow, h, binaryOp, slotOf, monoSlot, monomialPow, binaryRight]
  · simp [inplaceSlot, monomialIPow, h]

/-- `x /= 2` gives `2 x`, while `x / 2` is right -/
example : rebind .div false (.mono ⟨[(1, 1)]⟩) (.int 2) = .ok (.poly [(⟨[(1, 1)]⟩, 2)]) ∧
    binaryOp .div (.mono ⟨[(1, 1)]⟩) (.int 2) = .ok (.poly [(⟨[(1, 1)]⟩, 1 / 2)]) := by
  decide +kernel

/-! ## C87: items of polynomials -/

/-- **C87** (in part).  The number looked up for `p[m]` is the coefficient of the monomial.  Missing:
returning it, and assignment; neither ever succeeds. -/
theorem C87_lookup_partial {p : Poly} (hp : p.WF) (pp : p.Proper) {m : Mono} (hm : m.WF)
    (pm : m.Proper) : Poly.coeff p m = p.val.coeff m.exps := by
  rw [Poly.val_coeff hp pp hm pm]

/-- **C87**, refuted: `p[m]` never returns.  The code of the type of rational numbers is odd and does
not survive packing, so that no scalar can be made from the coefficient, and the exception leaves a
slot function. -/
theorem C87_wrong_get (p : Poly) (m : Mono) : getItem p (.mono m) = .terminate := by
  have : dispatches (Args.readBack ⟨Args.cRational, 32, 8, 1⟩).code = false := by decide
  simp [getItem, scalarOfRational, this]

/-- **C87**, refuted: `p[m] = c` never succeeds, whatever `c` is. -/
theorem C87_wrong_set (p : Poly) (index : Option Mono) (arg : PyVal) (q : Poly) :
    setItem p index arg ≠ .ok q := by
  intro h
  unfold setItem at h
  cases ht : toRat arg <;> rw [ht] at h <;> simp at h

example : Poly.coeff [(Mono.one, 2), (⟨[(1, 1)]⟩, 5)] ⟨[(1, 1)]⟩ = 5 := by decide +kernel

/-! ## C89: order of monomials -/

/-- **C89**.  The comparisons of monomials come from one total order: exactly one of `<`, `==`, `>`
holds, `<` is transitive, and the other comparisons are what they should be. -/
theorem C89_order (a b c : Mono) :
    (monomialCompare .lt a a = false) ∧
    (monomialCompare .lt a b = true → monomialCompare .lt b c = true →
      monomialCompare .lt a c = true) ∧
    (monomialCompare .lt a b = true ∨ monomialCompare .eq a b = true ∨
      monomialCompare .gt a b = true) ∧
    (monomialCompare .eq a b = true ↔ a = b) ∧
    (monomialCompare .ne a b = true ↔ a ≠ b) ∧
    (monomialCompare .gt a b = monomialCompare .lt b a) ∧
    (monomialCompare .le a b = true ↔ ¬monomialCompare .gt a b = true) ∧
    (monomialCompare .ge a b = true ↔ ¬monomialCompare .lt a b = true) := by
  simp only [monomialCompare, Bool.or_eq_true, Mono.lt_iff, Mono.beq_iff, Bool.not_eq_true',
    ← Bool.not_eq_true, not_lt]
  refine ⟨le_refl a, fun h1 h2 => lt_trans h1 h2, lt_trichotomy a b, trivial, trivial,
    trivial, ?_, ?_⟩
  · rw [le_iff_lt_or_eq]
  · rw [le_iff_lt_or_eq]
    exact ⟨fun h => h.imp id Eq.symm, fun h => h.imp id Eq.symm⟩

/-- **C89**.  Monomials of smaller degree come first. -/
theorem C89_degree {a b : Mono} (h : (a.entries.map fun e => e.2).sum < (b.entries.map fun e => e.2).sum) :
    monomialCompare .lt a b = true := by
  rw [← Mono.degree_eq, ← Mono.degree_eq] at h
  simp [monomialCompare, Mono.lt, h]

example : monomialCompare .lt ⟨[(1, 1), (2, 1)]⟩ ⟨[(1, 2)]⟩ = true := by decide +kernel

/-! ## C97: degree of polynomials -/

theorem degree_fold (p : Poly) : ∀ d : ℤ,
    let r := p.foldl (fun result e => if e.1.degree > result then e.1.degree else result) d
    d ≤ r ∧ (∀ e ∈ p, e.1.degree ≤ r) ∧ (r = d ∨ ∃ e ∈ p, e.1.degree = r) := by
  induction p with
  | nil => intro d; simp
  | cons e p ih =>
    intro d
    simp only [List.foldl_cons]
    obtain ⟨h1, h2, h3⟩ := ih (if e.1.degree > d then e.1.degree else d)
    have hd : d ≤ (if e.1.degree > d then e.1.degree else d) := by split_ifs <;> omega
    have he : e.1.degree ≤ (if e.1.degree > d then e.1.degree else d) := by split_ifs <;> omega
    refine ⟨le_trans hd h1, ?_, ?_⟩
    · intro f hf
      rcases List.mem_cons.1 hf with rfl | hf
      · exact le_trans he h1
      · exact h2 f hf
    · rcases h3 with h3 | ⟨f, hf, h3⟩
      · by_cases hc : e.1.degree > d
        · rw [if_pos hc] at h3 ⊢
          exact .inr ⟨e, List.mem_cons_self, h3.symm⟩
        · rw [if_neg hc] at h3 ⊢
          exact .inl h3
      · exact .inr ⟨f, List.mem_cons_of_mem _ hf, h3⟩

/-- **C97** (in part).  If no exponent sum is negative, the degree of a polynomial other than zero is
the largest degree of its monomials.  Missing: polynomials with negative exponents. -/
theorem C97_degree_partial {p : Poly} (hp : p ≠ [])
    (hn : ∀ e ∈ p, 0 ≤ (e.1.entries.map fun x => x.2).sum) :
    (∀ e ∈ p, (e.1.entries.map fun x => x.2).sum ≤ p.degree) ∧
    ∃ e ∈ p, (e.1.entries.map fun x => x.2).sum = p.degree := by
  simp only [← Mono.degree_eq] at hn ⊢
  obtain ⟨h1, h2, h3⟩ := degree_fold p 0
  refine ⟨h2, ?_⟩
  rcases h3 with h3 | h3
  · obtain ⟨e, he⟩ := List.exists_mem_of_ne_nil p hp
    refine ⟨e, he, ?_⟩
    have := h2 e he
    have := hn e he
    have hz : p.degree = 0 := h3
    rw [hz]
    omega
  · exact h3

/-- **C97**, refuted: the degree of a monomial of negative degree, as a polynomial, is zero. -/
theorem C97_wrong {m : Mono} (hm : (m.entries.map fun x => x.2).sum < 0) (c : ℚ) :
    Poly.degree [(m, c)] = 0 := by
  rw [← Mono.degree_eq] at hm
  simp only [Poly.degree, List.foldl_cons, List.foldl_nil]
  rw [if_neg (by omega)]

example : Poly.degree [(Mono.one, 1), (⟨[(1, 1)]⟩, 2), (⟨[(1, 2), (3, 1)]⟩, 2)] = 3 := by
  decide +kernel

end RoughPy.Polys
