import Verif.Lite.AdjointModel
import Verif.Lite.AntipodeLemmas
import Verif.Tensor.Adjoint

/-! # Lemmas for the adjoint of left multiplication -/

set_option linter.unusedSectionVars false

namespace RoughPy.Lite

open RoughPy.Tensor RoughPy.Tensor.Series Finset

variable {K : Type}

section
variable [CommRing K] [DecidableEq K]

/-- the entry of an array, 0 outside -/
def ent (l : List K) (i : ℕ) : K := l[i]?.getD 0

theorem ent_of_lt {l : List K} {i : ℕ} (h : i < l.length) : l[i]? = some (ent l i) := by
  unfold ent; rw [List.getElem?_eq_getElem h]; rfl

theorem increaseAt_eq {l : List K} {i : ℕ} (h : i < l.length) (x : K) :
    ∃ l', increaseAt l i x = some l' ∧ l'.length = l.length ∧
      ∀ p, ent l' p = ent l p + if p = i then x else 0 := by
  unfold increaseAt
  rw [ent_of_lt h]
  refine ⟨_, rfl, by simp, fun p => ?_⟩
  unfold ent
  rw [List.getElem?_set]
  by_cases hp : i = p
  · subst hp; simp [h]
  · rw [if_neg hp, if_neg (Ne.symm hp), add_zero]

/-- loops whose bodies add to the entries of an array -/
theorem loop_ent {ι : Type} {N : ℕ} (l : List ι) (body : List K → ι → Option (List K))
    (F : ι → ℕ → K)
    (h : ∀ x ∈ l, ∀ b : List K, b.length = N →
      ∃ b', body b x = some b' ∧ b'.length = N ∧ ∀ p, ent b' p = ent b p + F x p) :
    ∀ b : List K, b.length = N → ∃ b', loop l b body = some b' ∧ b'.length = N ∧
      ∀ p, ent b' p = ent b p + (l.map fun x => F x p).sum := by
  induction l with
  | nil => intro b hb; exact ⟨b, rfl, hb, fun p => by simp⟩
  | cons x l ih =>
    intro b hb
    obtain ⟨b1, h1, hP1, hF1⟩ := h x (by simp) b hb
    obtain ⟨b2, h2, hP2, hF2⟩ := ih (fun y hy => h y (by simp [hy])) b1 hP1
    refine ⟨b2, ?_, hP2, fun p => ?_⟩
    · rw [loop_cons, h1]; exact h2
    · rw [hF2, hF1, List.map_cons, List.sum_cons, add_assoc]

/-- what one degree contributes -/
def degTerm (w : ℕ) (arg mul : List K) (q k p : ℕ) : K :=
  ∑ r ∈ range (w ^ q), ∑ i ∈ range (w ^ k),
    if p = wordsBelow w k + i then
      ent mul (wordsBelow w q + r) * ent arg (wordsBelow w (q + k) + r * w ^ k + i) else 0

theorem adjDegree_spec {w depth q k N : ℕ} {arg mul out : List K} (hk : q + k ≤ depth)
    (hmul : wordsBelow w (q + 1) ≤ mul.length) (harg : wordsBelow w (q + k + 1) ≤ arg.length)
    (hN : wordsBelow w (k + 1) ≤ N) (hout : out.length = N) :
    ∃ out', adjDegree (tensorPowers w depth) arg mul (wordsBelow w q) q
        (out, wordsBelow w (q + k), wordsBelow w k) k =
          some (out', wordsBelow w (q + k + 1), wordsBelow w (k + 1)) ∧
      out'.length = N ∧ ∀ p, ent out' p = ent out p + degTerm w arg mul q k p := by
  unfold adjDegree
  rw [tensorPowers_get (by omega), tensorPowers_get (by omega), tensorPowers_get (by omega)]
  simp only [Option.bind_eq_bind, Option.bind_some]
  obtain ⟨out', e1, e2, e3⟩ := loop_ent (N := N) (List.range (w ^ q))
    (fun out pidx => (mul[wordsBelow w q + pidx]?).bind fun val =>
      loop (List.range (w ^ k)) out fun out aidx =>
        (arg[wordsBelow w (q + k) + pidx * w ^ k + aidx]?).bind fun x =>
          increaseAt out (wordsBelow w k + aidx) (val * x))
    (fun r p => ∑ i ∈ range (w ^ k), if p = wordsBelow w k + i then
      ent mul (wordsBelow w q + r) * ent arg (wordsBelow w (q + k) + r * w ^ k + i) else 0)
    (by
      intro r hr b hb
      rw [List.mem_range] at hr
      rw [ent_of_lt (l := mul) (by rw [wordsBelow_succ] at hmul; omega)]
      simp only [Option.bind_some]
      obtain ⟨b', f1, f2, f3⟩ := loop_ent (N := N) (List.range (w ^ k))
        (fun out aidx => (arg[wordsBelow w (q + k) + r * w ^ k + aidx]?).bind fun x =>
          increaseAt out (wordsBelow w k + aidx) (ent mul (wordsBelow w q + r) * x))
        (fun i p => if p = wordsBelow w k + i then
          ent mul (wordsBelow w q + r) * ent arg (wordsBelow w (q + k) + r * w ^ k + i) else 0)
        (by
          intro i hi b hb
          rw [List.mem_range] at hi
          have h1 : r * w ^ k + i < w ^ q * w ^ k := mul_add_lt hr hi
          rw [← pow_add] at h1
          rw [ent_of_lt (l := arg) (by rw [wordsBelow_succ] at harg; omega)]
          simp only [Option.bind_some]
          obtain ⟨b', g1, g2, g3⟩ := increaseAt_eq (l := b) (i := wordsBelow w k + i)
            (by rw [wordsBelow_succ] at hN; omega)
            (ent mul (wordsBelow w q + r) * ent arg (wordsBelow w (q + k) + r * w ^ k + i))
          exact ⟨b', g1, g2.trans hb, g3⟩)
        b hb
      exact ⟨b', f1, f2, fun p => by rw [f3, sum_list_range]⟩)
    out hout
  rw [e1]
  refine ⟨out', ?_, e2, fun p => by rw [e3, sum_list_range]; rfl⟩
  simp only [Option.bind_some, wordsBelow_succ]

theorem adjSingle_spec {w depth q A N : ℕ} {arg mul out : List K} (hq : q ≤ A) (hA : A ≤ depth)
    (hmul : wordsBelow w (q + 1) ≤ mul.length) (harg : wordsBelow w (A + 1) ≤ arg.length)
    (hN : N = wordsBelow w (A + 1)) (hout : out.length = N) :
    ∃ out', adjSingle (tensorPowers w depth) arg mul (wordsBelow w q) (wordsBelow w q) q A out =
        some out' ∧ out'.length = N ∧
      ∀ p, ent out' p = ent out p + ∑ k ∈ range (A + 1 - q), degTerm w arg mul q k p := by
  unfold adjSingle
  by_cases h : q = A
  · rw [if_pos h]
    subst h
    rw [tensorPowers_get hA]
    simp only [Option.bind_eq_bind, Option.bind_some]
    obtain ⟨out', e1, e2, e3⟩ := loop_ent (N := N) (List.range (w ^ q))
      (fun out i => (mul[wordsBelow w q + i]?).bind fun x =>
        (arg[wordsBelow w q + i]?).bind fun y => increaseAt out 0 (x * y))
      (fun r p => if p = 0 then
        ent mul (wordsBelow w q + r) * ent arg (wordsBelow w q + r) else 0)
      (by
        intro r hr b hb
        rw [List.mem_range] at hr
        rw [wordsBelow_succ] at hmul harg hN
        rw [ent_of_lt (l := mul) (by omega), ent_of_lt (l := arg) (by omega)]
        simp only [Option.bind_some]
        obtain ⟨b', g1, g2, g3⟩ := increaseAt_eq (l := b) (i := 0) (by omega)
          (ent mul (wordsBelow w q + r) * ent arg (wordsBelow w q + r))
        exact ⟨b', g1, g2.trans hb, g3⟩)
      out hout
    refine ⟨out', e1, e2, fun p => ?_⟩
    rw [e3, sum_list_range]
    have : q + 1 - q = 1 := by omega
    rw [this, sum_range_one]
    congr 1
    unfold degTerm
    refine sum_congr rfl fun r _ => ?_
    rw [pow_zero, sum_range_one, wordsBelow_zero]
    simp
  · rw [if_neg h]
    have key : ∀ n, n ≤ A + 1 - q → ∃ out', loop (List.range n) (out, wordsBelow w q, 0)
        (adjDegree (tensorPowers w depth) arg mul (wordsBelow w q) q) =
          some (out', wordsBelow w (q + n), wordsBelow w n) ∧ out'.length = N ∧
        ∀ p, ent out' p = ent out p + ∑ k ∈ range n, degTerm w arg mul q k p := by
      intro n
      induction n with
      | zero =>
        intro _
        exact ⟨out, by simp [loop, wordsBelow_zero], hout, fun p => by simp⟩
      | succ n ih =>
        intro hn
        obtain ⟨b, e1, e2, e3⟩ := ih (by omega)
        obtain ⟨b', f1, f2, f3⟩ := adjDegree_spec (w := w) (depth := depth) (q := q) (k := n)
          (N := N) (arg := arg) (mul := mul) (out := b) (by omega) hmul
          ((wordsBelow_mono (by omega)).trans harg)
          (hN ▸ wordsBelow_mono (by omega)) e2
        refine ⟨b', ?_, f2, fun p => by rw [f3, e3, sum_range_succ, add_assoc]⟩
        rw [List.range_succ, loop_append, e1]
        simp only [Option.bind_some]
        rw [loop_cons, f1]
        rfl
    obtain ⟨b, e1, e2, e3⟩ := key _ le_rfl
    refine ⟨b, ?_, e2, e3⟩
    rw [e1]; rfl

theorem adjPrefix_spec {w depth A D N : ℕ} {arg mul out : List K} (hA : A ≤ depth)
    (hmul : wordsBelow w (D + 1) ≤ mul.length) (harg : wordsBelow w (A + 1) ≤ arg.length)
    (hN : N = wordsBelow w (A + 1)) (hout : out.length = N) (n : ℕ) (hnA : n ≤ A) (hnD : n ≤ D) :
    ∃ out', loop (List.range n) (out, 0, 0) (adjPrefix (tensorPowers w depth) arg mul A) =
        some (out', wordsBelow w n, wordsBelow w n) ∧ out'.length = N ∧
      ∀ p, ent out' p = ent out p + ∑ q ∈ range n,
        ∑ k ∈ range (A + 1 - (q + 1)), degTerm w arg mul (q + 1) k p := by
  induction n with
  | zero => exact ⟨out, by simp [loop, wordsBelow_zero], hout, fun p => by simp⟩
  | succ n ih =>
    obtain ⟨b, e1, e2, e3⟩ := ih (by omega) (by omega)
    obtain ⟨b', f1, f2, f3⟩ := adjSingle_spec (w := w) (depth := depth) (q := n + 1) (A := A)
      (N := N) (arg := arg) (mul := mul) (out := b) (by omega) hA
      ((wordsBelow_mono (by omega)).trans hmul) harg hN e2
    refine ⟨b', ?_, f2, fun p => by rw [f3, e3, sum_range_succ, add_assoc]⟩
    rw [List.range_succ, loop_append, e1]
    simp only [Option.bind_some]
    rw [loop_cons]
    unfold adjPrefix
    rw [tensorPowers_get (by omega)]
    simp only [Option.bind_eq_bind, Option.bind_some]
    rw [← wordsBelow_succ, f1]
    rfl

/-- the contribution of the prefixes of length `q` at a word -/
theorem degTerm_word {w : ℕ} (arg mul : List K) (q k : ℕ) (u : List (Fin w)) :
    degTerm w arg mul q k (wordIndex u) = if u.length = k then
      sumWords q fun v : List (Fin w) => ent mul (wordIndex v) * ent arg (wordIndex (v ++ u))
    else 0 := by
  unfold degTerm
  by_cases h : u.length = k
  · rw [if_pos h, sum_offsets (w := w) q (fun r => ∑ i ∈ range (w ^ k),
      if wordIndex u = wordsBelow w k + i then
        ent mul (wordsBelow w q + r) * ent arg (wordsBelow w (q + k) + r * w ^ k + i) else 0)]
    refine sumWords_congr fun v hv => ?_
    subst h hv
    rw [sum_eq_single (wordOffset u)]
    · unfold wordIndex
      rw [if_pos rfl, wordOffset_append, List.length_append, Nat.add_assoc (wordsBelow w _)]
    · intro i _ hi
      rw [if_neg]
      unfold wordIndex
      omega
    · intro hu
      exact absurd (mem_range.2 (wordOffset_lt u)) hu
  · rw [if_neg h]
    refine sum_eq_zero fun r _ => sum_eq_zero fun i hi => ?_
    rw [if_neg]
    intro e
    obtain ⟨v, hv, rfl⟩ := exists_word (mem_range.1 hi)
    have : wordIndex u = wordIndex v := by rw [e]; unfold wordIndex; rw [hv]
    rw [wordIndex_inj this] at h
    exact h hv

/-- the assignments of multiples of the argument -/
theorem assign_spec {N : ℕ} (c : K) (arg out : List K) (hN : out.length = N)
    (harg : arg.length = N) (n : ℕ) (hn : n ≤ N) :
    ∃ out', loop (List.range n) out (fun out i => (arg[i]?).bind fun x => assignAt out i (c * x)) =
        some out' ∧ out'.length = N ∧
      ∀ p, ent out' p = if p < n then c * ent arg p else ent out p := by
  induction n with
  | zero => exact ⟨out, rfl, hN, fun p => by simp⟩
  | succ n ih =>
    obtain ⟨b, e1, e2, e3⟩ := ih (by omega)
    refine ⟨b.set n (c * ent arg n), ?_, by simp [e2], fun p => ?_⟩
    · rw [List.range_succ, loop_append, e1]
      simp only [Option.bind_some]
      rw [loop_cons, ent_of_lt (l := arg) (by omega)]
      simp only [Option.bind_some, Option.bind_eq_bind]
      rw [assignAt_eq (by omega)]
      rfl
    · have h3 := e3 p
      unfold ent at h3 ⊢
      rw [List.getElem?_set]
      by_cases hp : n = p
      · subst hp
        rw [if_pos rfl, if_pos (by omega), if_pos (by omega)]
        rfl
      · rw [if_neg hp, h3]
        by_cases hlt : p < n
        · rw [if_pos hlt, if_pos (by omega)]
        · rw [if_neg hlt, if_neg (by omega)]

/-- The dense adjoint of a storage filled up to its degree. -/
theorem adjDenseDense_spec {w depth : ℕ} {arg mul : Dense K} (harg : arg.degree ≤ depth)
    (hal : arg.storage.length = wordsBelow w (arg.degree + 1))
    (hml : mul.storage.length = wordsBelow w (mul.degree + 1)) :
    ∃ r, adjDenseDense w depth arg mul = some r ∧ r.degree = 0 ∧
      r.storage.length = arg.storage.length ∧
      ∀ u : List (Fin w), u.length ≤ arg.degree → ent r.storage (wordIndex u) =
        ∑ n ∈ range (min arg.degree mul.degree + 1), if u.length + n ≤ arg.degree then
          sumWords n fun v : List (Fin w) =>
            ent mul.storage (wordIndex v) * ent arg.storage (wordIndex (v ++ u)) else 0 := by
  obtain ⟨as, ad⟩ := arg
  obtain ⟨ms, md⟩ := mul
  dsimp only at *
  have hpos : ∀ d, 0 < wordsBelow w (d + 1) := fun d => by rw [wordsBelow_succ']; omega
  have hms := hpos md
  unfold adjDenseDense
  rw [tensorSizes_get (by dsimp only; omega)]
  dsimp only
  simp only [Option.bind_eq_bind, Option.bind_some]
  rw [ent_of_lt (l := ms) (i := 0) (by omega)]
  simp only [Option.bind_some]
  have hzero : ∀ i, ent ((Dense.new : Dense K).resizeExact (wordsBelow w (ad + 1)) 0).storage i = 0 := by
    intro i
    unfold ent Dense.resizeExact Dense.new
    simp only [List.take_nil, List.nil_append, List.length_nil, Nat.sub_zero]
    rw [List.getElem?_replicate]
    split_ifs <;> rfl
  have hlen := Dense.length_resizeExact (Dense.new : Dense K) (wordsBelow w (ad + 1)) 0
  obtain ⟨b, e1, e2, e3⟩ : ∃ b : List K, adjUnit as (ent ms 0)
      ((Dense.new : Dense K).resizeExact (wordsBelow w (ad + 1)) 0).storage = some b ∧
      b.length = wordsBelow w (ad + 1) ∧
      ∀ p, p < wordsBelow w (ad + 1) → ent b p = ent ms 0 * ent as p := by
    unfold adjUnit
    by_cases h0 : ent ms 0 ≠ 0
    · rw [if_pos h0]
      obtain ⟨b, f1, f2, f3⟩ := assign_spec (ent ms 0) as
        ((Dense.new : Dense K).resizeExact (wordsBelow w (ad + 1)) 0).storage hlen hal as.length
        (by omega)
      exact ⟨b, f1, f2, fun p hp => by rw [f3, if_pos (by omega)]⟩
    · rw [if_neg h0]
      refine ⟨_, rfl, hlen, fun p _ => ?_⟩
      rw [hzero, not_not.1 h0, zero_mul]
  rw [e1]
  simp only [Option.bind_some]
  obtain ⟨b', f1, f2, f3⟩ := adjPrefix_spec (w := w) (depth := depth) (A := ad) (D := md)
    (N := wordsBelow w (ad + 1)) (arg := as) (mul := ms) (out := b) harg (by omega) (by omega) rfl
    e2 (min ad md) (by omega) (by omega)
  rw [f1]
  refine ⟨_, rfl, rfl, f2.trans hal.symm, fun u hu => ?_⟩
  dsimp only
  rw [f3, e3 _ (wordIndex_lt hu), sum_range_succ', add_comm]
  congr 1
  · refine sum_congr rfl fun q hq => ?_
    rw [mem_range] at hq
    rw [sum_congr rfl fun k _ => degTerm_word as ms (q + 1) k u, sum_ite_eq]
    simp only [mem_range]
    by_cases h : u.length + (q + 1) ≤ ad
    · rw [if_pos (by omega), if_pos h]
    · rw [if_neg (by omega), if_neg h]
  · rw [if_pos (by omega)]
    show _ = ent ms (wordIndex ([] : List (Fin w))) * ent as (wordIndex ([] ++ u))
    rw [List.nil_append]
    congr 2

/-- With a sparse multiplier no access is outside the storages. -/
theorem adjDenseSparse_some {w depth : ℕ} {arg : Dense K} {mul : Sparse K}
    (harg : arg.degree ≤ depth) (hal : arg.storage.length = wordsBelow w (arg.degree + 1))
    (hmul : ∀ t ∈ mul, t.1.idx < w ^ t.1.deg) :
    ∃ r, adjDenseSparse w depth arg mul = some r ∧ r.degree = 0 ∧
      r.storage.length = arg.storage.length := by
  obtain ⟨as, ad⟩ := arg
  dsimp only at *
  unfold adjDenseSparse
  rw [tensorSizes_get (by dsimp only; omega)]
  dsimp only
  simp only [Option.bind_eq_bind, Option.bind_some]
  have hlen := Dense.length_resizeExact (Dense.new : Dense K) (wordsBelow w (ad + 1)) 0
  have gen : ∀ {ι : Type} (l : List ι) (body : List K → ι → Option (List K)),
      (∀ x ∈ l, ∀ b : List K, b.length = wordsBelow w (ad + 1) →
        ∃ b', body b x = some b' ∧ b'.length = wordsBelow w (ad + 1)) →
      ∀ b : List K, b.length = wordsBelow w (ad + 1) →
        ∃ b', loop l b body = some b' ∧ b'.length = wordsBelow w (ad + 1) := by
    intro ι l body
    induction l with
    | nil => intro _ b hb; exact ⟨b, rfl, hb⟩
    | cons x l ih =>
      intro h b hb
      obtain ⟨b1, e1, e2⟩ := h x (by simp) b hb
      obtain ⟨b2, f1, f2⟩ := ih (fun y hy => h y (by simp [hy])) b1 e2
      exact ⟨b2, by rw [loop_cons, e1]; exact f1, f2⟩
  obtain ⟨b, e1, e2⟩ := gen mul (fun out t =>
    loop (List.range (ad + 1 - t.1.deg)) out fun out suffix =>
      (tensorStart w depth suffix).bind fun start =>
        (tensorPowers w depth)[suffix]?.bind fun m =>
          loop (List.range m) out fun out i =>
            as[t.1.idx * m + i]?.bind fun x => increaseAt out (start + i) (t.2 * x)) (by
    intro t ht b hb
    refine gen _ _ ?_ b hb
    intro k hk b hb
    rw [List.mem_range] at hk
    rw [tensorStart_eq (by omega), tensorPowers_get (by omega)]
    simp only [Option.bind_some]
    refine gen _ _ ?_ b hb
    intro i hi b hb
    rw [List.mem_range] at hi
    have h1 : t.1.idx * w ^ k + i < w ^ t.1.deg * w ^ k := mul_add_lt (hmul t ht) hi
    rw [← pow_add] at h1
    have h2 := wordsBelow_succ (w := w) (t.1.deg + k)
    have h3 := wordsBelow_mono (w := w) (show t.1.deg + k + 1 ≤ ad + 1 by omega)
    have h4 := wordsBelow_succ (w := w) k
    have h5 := wordsBelow_mono (w := w) (show k + 1 ≤ ad + 1 by omega)
    rw [ent_of_lt (l := as) (by omega)]
    simp only [Option.bind_some]
    obtain ⟨b', g1, g2, _⟩ := increaseAt_eq (l := b) (i := wordsBelow w k + i) (by omega)
      (t.2 * ent as (t.1.idx * w ^ k + i))
    exact ⟨b', g1, g2.trans hb⟩) _ hlen
  rw [e1]
  exact ⟨_, rfl, rfl, by rw [hal]; exact e2⟩

/-! ## Sparse arguments -/

/-- a function that does nothing leaves only zeros -/
theorem binaryInplace_zeros {m : Sparse K} (hm : ∀ t ∈ m, t.2 = 0) (rhs : Sparse K) :
    ∀ t ∈ Sparse.binaryInplace (fun l _ => l) m rhs, t.2 = 0 := by
  unfold Sparse.binaryInplace
  induction rhs generalizing m with
  | nil => exact hm
  | cons e rhs ih =>
    rw [List.foldl_cons]
    refine ih ?_
    intro t ht
    unfold Sparse.combine at ht
    rcases hf : SMap.find m e.1 with _ | v
    · rw [hf] at ht
      dsimp only at ht
      rcases SMap.mem_set ht with h | h
      · rw [h]
      · exact hm t h
    · rw [hf] at ht
      dsimp only at ht
      have hv : v = 0 := hm _ (SMap.mem_of_find hf)
      rw [if_pos hv] at ht
      exact hm t (SMap.mem_erase ht)

theorem adjSparse_zeros {w depth : ℕ} {arg : Sparse K} {mul : List (Key × K)} {r : Sparse K}
    (h : adjSparse w depth arg mul = some r) : ∀ t ∈ r, t.2 = 0 := by
  unfold adjSparse at h
  have gen : ∀ (mul : List (Key × K)) (m r : Sparse K), (∀ t ∈ m, t.2 = 0) →
      loop mul m (fun result t => (shiftDown w depth 300 arg t.1).bind fun s =>
        some (result.binaryInplace (fun l _ => l) s)) = some r → ∀ t ∈ r, t.2 = 0 := by
    intro mul
    induction mul with
    | nil => intro m r hm e; rw [← Option.some.inj e]; exact hm
    | cons x mul ih =>
      intro m r hm e
      rw [loop_cons] at e
      simp only [Option.bind_eq_bind, Option.bind_eq_some_iff] at e
      obtain ⟨b, ⟨s, _, hb⟩, e⟩ := e
      refine ih b r ?_ e
      rw [← Option.some.inj hb]
      exact binaryInplace_zeros hm s
  exact gen mul [] r (by simp) h

end

theorem keyParents_letter {w depth l : ℕ} (hl0 : 1 ≤ l) (hl : l < w) (hw : w < 65536) :
    ∃ p k, keyParents w depth ⟨1, l⟩ = some (p, k) ∧ k.deg = 255 := by
  unfold keyParents
  rw [if_neg (by simp)]
  dsimp only
  rw [tensorPowers_get (by omega)]
  simp only [Option.bind_eq_bind, Option.bind_some, Nat.sub_self, pow_zero]
  rw [if_neg one_ne_zero, Nat.div_one]
  refine ⟨_, _, rfl, ?_⟩
  unfold wrapKey
  dsimp only
  have h1 : l * w < 65536 * 65536 := Nat.mul_lt_mul'' (by omega) hw
  have h2 : l * 2 ≤ l * w := Nat.mul_le_mul_left _ (by omega)
  rw [Nat.mod_eq_of_lt (a := l * w) (by omega)]
  rw [Nat.mod_eq_of_lt (a := l + 2 ^ 64 - l * w) (by omega)]
  rw [Nat.mod_eq_of_lt (by omega)]
  omega

/-- the letters but the first make `shift_down` read outside the table of powers -/
theorem shiftDown_letter [CommRing K] [DecidableEq K] {w depth l : ℕ} (hl0 : 1 ≤ l) (hl : l < w)
    (hw : w < 65536) (hd : depth < 254) (arg : Sparse K) :
    shiftDown w depth 300 arg ⟨1, l⟩ = none := by
  obtain ⟨p, k, h1, h2⟩ := keyParents_letter (depth := depth) hl0 hl hw
  unfold shiftDown
  rw [if_neg (by simp), h1]
  simp only [Option.bind_eq_bind, Option.bind_some]
  rcases shiftOnce w depth p arg with _ | r
  · rfl
  · simp only [Option.bind_some]
    unfold shiftDown
    rw [if_neg (by omega)]
    unfold keyParents
    rw [if_neg (by omega), h2, tensorPowers_eq, List.getElem?_eq_none (by simp; omega)]
    rfl

end RoughPy.Lite
