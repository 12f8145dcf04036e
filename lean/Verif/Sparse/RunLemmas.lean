import Verif.Sparse.Lemmas

set_option linter.unusedSectionVars false

/-! # Sequences of calls, application -/

namespace RoughPy.Sparse

open RoughPy.Tensor (loop Buf loop_nil loop_cons loop_add sum_list_range)

section
variable {K : Type}

theorem frames_append (p q : List (Op K)) : frames (p ++ q) = frames p + frames q := List.countP_append ..

theorem frames_frame (q : List (Op K)) : frames (.frame :: q) = frames q + 1 := by simp [frames]

theorem frames_add (i : ℕ) (v : K) (q : List (Op K)) : frames (.add i v :: q) = frames q := by simp [frames]

theorem added_append (f i now : ℕ) (p q : List (Op K)) :
    added f i now (p ++ q) = added f i now p ++ added f i (now + frames p) q := by
  induction p generalizing now with
  | nil => simp [added, frames]
  | cons o p ih =>
    cases o with
    | frame =>
      rw [List.cons_append, added, added, ih, frames_frame, show now + 1 + frames p = now + (frames p + 1) by omega]
    | add j v =>
      rw [List.cons_append, added, added, frames_add]
      by_cases h : now = f + 1 ∧ j = i
      · rw [if_pos h, if_pos h, ih, List.cons_append]
      · rw [if_neg h, if_neg h, ih]

theorem added_late {f i now : ℕ} (h : f + 1 < now) (q : List (Op K)) : added f i now q = [] := by
  induction q generalizing now with
  | nil => rfl
  | cons o q ih =>
    cases o with
    | frame => rw [added]; exact ih (by omega)
    | add j v =>
      rw [added, if_neg (by omega)]
      exact ih h

theorem added_early {f i : ℕ} (p : List (Op K)) (h : frames p ≤ f) : added f i 0 p = [] := by
  induction p using List.reverseRecOn with
  | nil => rfl
  | append_singleton p o ih =>
    rw [frames_append] at h
    rw [added_append, ih (by omega)]
    cases o with
    | frame => rfl
    | add j v =>
      rw [added, if_neg (by omega)]
      rfl

end

section
variable {K : Type} [AddCommMonoid K] [DecidableEq K]

theorem total_frame (p : List (Op K)) (f i : ℕ) : total (p ++ [.frame]) f i = total p f i := by
  unfold total
  rw [added_append]
  simp [added]

theorem total_add (p : List (Op K)) (j : ℕ) (v : K) (f i : ℕ) :
    total (p ++ [.add j v]) f i = total p f i + if frames p = f + 1 ∧ j = i then v else 0 := by
  unfold total
  rw [added_append]
  by_cases h : frames p = f + 1 ∧ j = i
  · simp [added, h]
  · simp [added, h]

/-- What the helper holds after the calls `p`. -/
structure After (h : Helper K) (p : List (Op K)) (done : List (List (ℕ × K))) (cur : List (ℕ × K)) : Prop where
  holds : Holds h done cur
  count : frames p = done.length + 1
  past : ∀ f c, done[f]? = some c → ∀ i, coeff c i = total p f i
  now : ∀ i, coeff cur i = total p done.length i
  touched : cur ≠ [] → ∃ i v, v ≠ 0 ∧ v ∈ added done.length i 0 p

/-- The condition that makes the removal of zeros stay within the arrays. -/
def Survives (ops : List (Op K)) : Prop :=
  ∀ f, (∃ i v, v ≠ 0 ∧ v ∈ added f i 0 ops) → ∃ f' i, f' ≤ f ∧ total ops f' i ≠ 0

theorem After.removable {h : Helper K} {p q ops : List (Op K)} {done : List (List (ℕ × K))} {cur : List (ℕ × K)}
    (ha : After h p done cur) (hops : ops = p ++ q) (hq : q = [] ∨ ∃ q', q = .frame :: q') (hs : Survives ops) :
    Removable done.flatten cur := by
  unfold Removable
  by_cases hc : cur = []
  · exact Or.inl hc
  right
  have hsame : ∀ f i, f ≤ done.length → added f i 0 ops = added f i 0 p := by
    intro f i hf
    rw [hops, added_append]
    have : added f i (0 + frames p) q = [] := by
      rcases hq with rfl | ⟨q', rfl⟩
      · rfl
      · rw [added]
        exact added_late (by rw [ha.count]; omega) _
    rw [this, List.append_nil]
  obtain ⟨i, v, hv, hm⟩ := ha.touched hc
  obtain ⟨f', i', hf', ht⟩ := hs done.length ⟨i, v, hv, by rw [hsame _ _ (Nat.le_refl _)]; exact hm⟩
  have htot : total ops f' i' = total p f' i' := by unfold total; rw [hsame _ _ hf']
  rw [htot] at ht
  rcases Nat.lt_or_ge f' done.length with h1 | h1
  · right
    have hg := List.getElem?_eq_getElem h1
    rw [← ha.past f' _ hg] at ht
    obtain ⟨e, he, -⟩ := mem_of_coeff ht
    intro h0
    have : e ∈ done.flatten := List.mem_flatten.2 ⟨_, List.getElem_mem h1, he⟩
    rw [h0] at this
    cases this
  · left
    have : f' = done.length := by omega
    subst this
    rw [← ha.now, ← coeff_purge] at ht
    obtain ⟨e, he, -⟩ := mem_of_coeff ht
    intro h0
    rw [h0] at he
    cases he

theorem run_append (h : Helper K) (p q : List (Op K)) : run h (p ++ q) = (run h p).bind fun h => run h q := by
  induction p generalizing h with
  | nil => rfl
  | cons o p ih =>
    cases o with
    | frame =>
      rw [List.cons_append, run, run, Option.bind_assoc]
      congr 1
      funext h'
      exact ih h'
    | add i v =>
      rw [List.cons_append, run, run, Option.bind_assoc]
      congr 1
      funext h'
      exact ih h'

theorem After.run {ops : List (Op K)} (hs : Survives ops) : ∀ (q p : List (Op K)) (h : Helper K)
    (done : List (List (ℕ × K))) (cur : List (ℕ × K)), After h p done cur → ops = p ++ q → frames ops = h.alloc →
    ∃ h' done' cur', run h q = some h' ∧ After h' ops done' cur' ∧ h'.alloc = h.alloc ∧ h'.rows = h.rows ∧
      h'.cols = h.cols ∧ h'.csc = h.csc := by
  intro q
  induction q with
  | nil =>
    intro p h done cur ha hops hf
    rw [List.append_nil] at hops
    subst hops
    exact ⟨h, done, cur, rfl, ha, rfl, rfl, rfl, rfl⟩
  | cons o q ih =>
    intro p h done cur ha hops hf
    cases o with
    | frame =>
      have hr := ha.removable hops (Or.inr ⟨q, rfl⟩) hs
      have hroom : done.length + 1 < h.alloc := by
        rw [← hf, hops, frames_append, frames_frame, ha.count]
        omega
      obtain ⟨h', h1, h2, h3, -, h4, h5, h6⟩ := ha.holds.insertFrame hr hroom
      have ha' : After h' (p ++ [.frame]) (done ++ [purge cur]) [] := by
        refine ⟨h2, ?_, ?_, ?_, fun hn => absurd rfl hn⟩
        · rw [frames_append, frames_frame, ha.count]
          simp [frames]
        · intro f c hc i
          rw [total_frame]
          rcases Nat.lt_or_ge f done.length with hlt | hge
          · rw [List.getElem?_append_left hlt] at hc
            exact ha.past f c hc i
          · have hb := (List.getElem?_eq_some_iff.1 hc).1
            rw [List.length_append, List.length_singleton] at hb
            have : f = done.length := by omega
            subst this
            rw [List.getElem?_append_right (Nat.le_refl _), Nat.sub_self] at hc
            simp only [List.getElem?_cons_zero, Option.some.injEq] at hc
            rw [← hc, coeff_purge]
            exact ha.now i
        · intro i
          rw [total_frame, coeff_nil, total, added_early _ (by rw [ha.count, List.length_append]; rfl)]
          rfl
      obtain ⟨h'', d, c, k1, k2, k3, k4, k5, k6⟩ := ih (p ++ [.frame]) h' _ _ ha' (by rw [hops]; simp) (by rw [hf, h3])
      refine ⟨h'', d, c, ?_, k2, k3.trans h3, k4.trans h4, k5.trans h5, k6.trans h6⟩
      rw [Sparse.run, h1]
      exact k1
    | add j v =>
      obtain ⟨h', cur', h1, h2, h3, h4, h5, h6, h7⟩ := ha.holds.insertValue j v
      have ha' : After h' (p ++ [.add j v]) done cur' := by
        refine ⟨h2, ?_, ?_, ?_, ?_⟩
        · rw [frames_append, frames_add, ha.count]
          simp [frames]
        · intro f c hc i
          have hb := (List.getElem?_eq_some_iff.1 hc).1
          rw [total_add, if_neg (by rw [ha.count]; omega), add_zero]
          exact ha.past f c hc i
        · intro i
          rw [total_add, h3.coeff, ha.now, ha.count]
          simp only [true_and, eq_comm (a := i)]
        · intro hne
          by_cases hv : v = 0
          · rw [h3.same hv] at hne
            obtain ⟨i, x, hx, hm⟩ := ha.touched hne
            exact ⟨i, x, hx, by rw [added_append]; exact List.mem_append_left _ hm⟩
          · refine ⟨j, v, hv, ?_⟩
            rw [added_append, ha.count]
            simp [added]
      obtain ⟨h'', d, c, k1, k2, k3, k4, k5, k6⟩ := ih (p ++ [.add j v]) h' _ _ ha' (by rw [hops]; simp) (by rw [hf, h4])
      refine ⟨h'', d, c, ?_, k2, k3.trans h4, k4.trans h5, k5.trans h6, k6.trans h7⟩
      rw [Sparse.run, h1]
      exact k1

theorem run_build {rows cols : ℕ} {nnzEst : ℤ} {csc : Bool} (hn : nnzEst ≠ 0) {q : List (Op K)}
    (ha : frames (.frame :: q) = if csc then cols else rows) (hs : Survives (.frame :: q)) :
    ∃ h m, run (init rows cols nnzEst csc) (.frame :: q) = some h ∧ build h = some m ∧
      Stores m (if csc then cols else rows) (total (.frame :: q)) ∧ m.rows = rows ∧ m.cols = cols ∧ m.csc = csc := by
  have hpos : 0 < (if csc then cols else rows) := by rw [← ha, frames_frame]; omega
  obtain ⟨h0, h1, h2, h3, h4, h5, h6⟩ := insertFrame_first (K := K) (h := init rows cols nnzEst csc) rfl rfl rfl rfl hpos
    (by
      simp only [init]
      split
      · exact hpos
      · omega)
  have ha' : After h0 ([.frame] : List (Op K)) [] [] := by
    refine ⟨h2, rfl, ?_, ?_, fun hn => absurd rfl hn⟩
    · intro f c hc; cases hc
    · intro i; rfl
  obtain ⟨h', done, cur, k1, k2, k3, k4, k5, k6⟩ := After.run hs q [.frame] h0 [] [] ha' rfl (by rw [ha, h3]; rfl)
  have hr := k2.removable (q := []) (by rw [List.append_nil]) (Or.inl rfl) hs
  have hlen : done.length + 1 = h'.alloc := by
    rw [← k2.count, ha, k3, h3]
    rfl
  obtain ⟨m, m1, m2, m3, m4, m5⟩ := k2.holds.build hr hlen
  refine ⟨h', m, ?_, m1, ?_, m3.trans (k4.trans h4), m4.trans (k5.trans h5), m5.trans (k6.trans h6)⟩
  · rw [Sparse.run, h1]
    exact k1
  · refine m2.stores ?_ ?_
    · rw [List.length_append, List.length_singleton, hlen, k3, h3]
      rfl
    · intro f c hc i
      rcases Nat.lt_or_ge f done.length with hlt | hge
      · rw [List.getElem?_append_left hlt] at hc
        exact k2.past f c hc i
      · have hb := (List.getElem?_eq_some_iff.1 hc).1
        rw [List.length_append, List.length_singleton] at hb
        have : f = done.length := by omega
        subst this
        rw [List.getElem?_append_right (Nat.le_refl _), Nat.sub_self] at hc
        simp only [List.getElem?_cons_zero, Option.some.injEq] at hc
        rw [← hc, coeff_purge]
        exact k2.now i

end

/-! ### Application -/

section
variable {K : Type} [CommRing K] [DecidableEq K]

theorem loop_slice {σ α : Type} (l : List α) (lo hi : ℕ) (hl : lo ≤ hi) (hh : hi ≤ l.length) (body : σ → α → Option σ)
    (s : σ) : (loop (upTo lo hi) s fun s p => (l[p]?).bind fun e => body s e) = loop ((l.drop lo).take (hi - lo)) s body := by
  obtain ⟨n, rfl⟩ : ∃ n, hi = lo + n := ⟨hi - lo, by omega⟩
  unfold upTo
  rw [show lo + n - lo = n by omega]
  induction n generalizing lo s with
  | zero => simp [loop_nil]
  | succ n ih =>
    have hlt : lo < l.length := by omega
    rw [List.range_succ_eq_map, List.map_cons, List.map_map, loop_cons, List.drop_eq_getElem_cons hlt, List.take_succ_cons,
      loop_cons, Nat.add_zero, List.getElem?_eq_getElem hlt, Option.bind_some]
    congr 1
    funext s'
    have := ih (lo + 1) s' (by omega) (by omega)
    rw [← this]
    congr 1
    apply List.map_congr_left
    intro a _
    simp only [Function.comp]
    omega

theorem Matrix.frame_some {m : Matrix K} {f : ℕ} {l : List (ℕ × K)} (h : m.frame f = some l) :
    ∃ lo hi, m.indptr[f]? = some lo ∧ m.indptr[f + 1]? = some hi ∧ lo ≤ hi ∧ hi ≤ m.entries.length ∧
      l = (m.entries.drop lo).take (hi - lo) := by
  unfold Matrix.frame at h
  cases h1 : m.indptr[f]? with
  | none => rw [h1] at h; cases h
  | some lo =>
    cases h2 : m.indptr[f + 1]? with
    | none => rw [h1, h2] at h; cases h
    | some hi =>
      rw [h1, h2] at h
      simp only [Option.bind_eq_bind, Option.bind_some] at h
      by_cases hc : lo ≤ hi ∧ hi ≤ m.entries.length
      · rw [if_pos hc, Option.some.injEq] at h
        exact ⟨lo, hi, rfl, rfl, hc.1, hc.2, h.symm⟩
      · rw [if_neg hc] at h; cases h

/-- The sum over a sorted list of the entries at one index. -/
theorem sum_at {l : List (ℕ × K)} {g : ℕ → K} (hs : Sorted l) (hm : ∀ i v, (i, v) ∈ l ↔ v ≠ 0 ∧ g i = v) (F : K → K)
    (hF : F 0 = 0) (i : ℕ) : (l.map fun e => if e.1 = i then F e.2 else 0).sum = F (g i) := by
  have key : ∀ l' : List (ℕ × K), Sorted l' → ((∃ v, (i, v) ∈ l') → ∃ v, (i, v) ∈ l' ∧
      (l'.map fun e => if e.1 = i then F e.2 else 0).sum = F v) ∧ ((∀ v, (i, v) ∉ l') →
      (l'.map fun e => if e.1 = i then F e.2 else 0).sum = 0) := by
    intro l' hl'
    induction l' with
    | nil => exact ⟨fun h => absurd h.choose_spec (List.not_mem_nil), fun _ => rfl⟩
    | cons e l' ih =>
      unfold Sorted at hl'
      rw [List.pairwise_cons] at hl'
      obtain ⟨ih1, ih2⟩ := ih hl'.2
      rw [List.map_cons, List.sum_cons]
      by_cases he : e.1 = i
      · have hno : ∀ v, (i, v) ∉ l' := by
          intro v hv
          have := hl'.1 _ hv
          dsimp only at this
          omega
        rw [if_pos he, ih2 hno, add_zero]
        refine ⟨fun _ => ⟨e.2, ?_, rfl⟩, fun hn => absurd ?_ (hn e.2)⟩
        · rw [← he]; exact List.mem_cons_self ..
        · rw [← he]; exact List.mem_cons_self ..
      · rw [if_neg he, zero_add]
        refine ⟨fun ⟨v, hv⟩ => ?_, fun hn => ih2 fun v hv => hn v (List.mem_cons_of_mem _ hv)⟩
        rcases List.mem_cons.1 hv with h | h
        · exact absurd (by rw [← h]) he
        · obtain ⟨v', h1, h2⟩ := ih1 ⟨v, h⟩
          exact ⟨v', List.mem_cons_of_mem _ h1, h2⟩
  obtain ⟨k1, k2⟩ := key l hs
  by_cases hg : g i = 0
  · rw [k2, hg, hF]
    intro v hv
    obtain ⟨h1, h2⟩ := (hm i v).1 hv
    exact h1 (h2 ▸ hg)
  · obtain ⟨v, h1, h2⟩ := k1 ⟨g i, (hm i _).2 ⟨hg, rfl⟩⟩
    rw [h2, ((hm i v).1 h1).2]

theorem apply_csc {m : Matrix K} {M : ℕ → ℕ → K} (hs : Stores m m.cols M) (hf : m.csc = true) {op : K → K} (h0 : op 0 = 0)
    {out arg : Buf K} (hout : ∀ j i, j < m.cols → M j i ≠ 0 → i < out.size) (harg : m.cols ≤ arg.size) :
    ∃ r, apply m op out arg = some r ∧ r.size = out.size ∧
      ∀ i, r.get i = out.get i + ∑ j ∈ Finset.range m.cols, op (M j i * arg.get j) := by
  unfold apply
  rw [if_pos hf]
  obtain ⟨r, h1, h2, h3⟩ := loop_add (K := K) (P := fun b => b.size = out.size) (List.range m.cols) (fun b j => do
      let lo ← m.indptr[j]?
      let hi ← m.indptr[j + 1]?
      loop (upTo lo hi) b fun out p => do
        let e ← m.entries[p]?
        let x ← arg.read j
        out.addAt e.1 (op (e.2 * x))) (fun j i => op (M j i * arg.get j)) (by
    intro j hj b hb
    rw [List.mem_range] at hj
    obtain ⟨l, hl, hsort, hmem⟩ := hs.frames j hj
    obtain ⟨lo, hi, e1, e2, e3, e4, e5⟩ := Matrix.frame_some hl
    simp only [e1, e2, Option.bind_eq_bind, Option.bind_some]
    rw [loop_slice m.entries lo hi e3 e4 (fun (out : Buf K) e => (arg.read j).bind fun x => out.addAt e.1 (op (e.2 * x))), ← e5]
    obtain ⟨r, r1, r2, r3⟩ := loop_add (K := K) (P := fun b => b.size = out.size) l
      (fun (out : Buf K) e => (arg.read j).bind fun x => out.addAt e.1 (op (e.2 * x)))
      (fun e i => if e.1 = i then op (e.2 * arg.get j) else 0) (by
        intro e he b hb
        have hne := (hmem e.1 e.2).1 he
        have hlt : e.1 < b.size := by rw [hb]; exact hout j e.1 hj (by rw [hne.2]; exact hne.1)
        rw [Tensor.Buf.read_eq (by omega), Option.bind_some, Tensor.Buf.addAt_eq hlt]
        refine ⟨_, rfl, hb, fun p => ?_⟩
        by_cases hp : e.1 = p
        · subst hp; simp
        · rw [if_neg hp, add_zero]
          exact Function.update_of_ne (fun h => hp h.symm) _ _) b hb
    refine ⟨r, r1, r2, fun p => ?_⟩
    rw [r3, sum_at hsort hmem (fun v => op (v * arg.get j)) (by simp [h0])]) out rfl
  refine ⟨r, h1, h2, fun i => ?_⟩
  rw [h3, sum_list_range]

theorem apply_csr {m : Matrix K} {M : ℕ → ℕ → K} (hs : Stores m m.rows M) (hf : m.csc = false) {op : K → K} (h0 : op 0 = 0)
    {out arg : Buf K} (hout : m.rows ≤ out.size) (harg : ∀ i j, i < m.rows → M i j ≠ 0 → j < arg.size) :
    ∃ r, apply m op out arg = some r ∧ r.size = out.size ∧
      ∀ i, r.get i = out.get i + if i < m.rows then ∑ j ∈ Finset.range arg.size, op (M i j * arg.get j) else 0 := by
  unfold apply
  rw [if_neg (by rw [hf]; exact Bool.false_ne_true)]
  obtain ⟨r, h1, h2, h3⟩ := loop_add (K := K) (P := fun b => b.size = out.size) (List.range m.rows) (fun b i => do
      let lo ← m.indptr[i]?
      let hi ← m.indptr[i + 1]?
      loop (upTo lo hi) b fun out p => do
        let e ← m.entries[p]?
        let x ← arg.read e.1
        out.addAt i (op (e.2 * x))) (fun i k => if i = k then ∑ j ∈ Finset.range arg.size, op (M i j * arg.get j) else 0) (by
    intro i hi b hb
    rw [List.mem_range] at hi
    obtain ⟨l, hl, hsort, hmem⟩ := hs.frames i hi
    obtain ⟨lo, hi', e1, e2, e3, e4, e5⟩ := Matrix.frame_some hl
    simp only [e1, e2, Option.bind_eq_bind, Option.bind_some]
    rw [loop_slice m.entries lo hi' e3 e4 (fun (out : Buf K) e => (arg.read e.1).bind fun x => out.addAt i (op (e.2 * x))), ← e5]
    have hbound : ∀ e ∈ l, e.1 < arg.size := by
      intro e he
      have hne := (hmem e.1 e.2).1 he
      exact harg i e.1 hi (by rw [hne.2]; exact hne.1)
    obtain ⟨r, r1, r2, r3⟩ := loop_add (K := K) (P := fun b => b.size = out.size) l
      (fun (out : Buf K) e => (arg.read e.1).bind fun x => out.addAt i (op (e.2 * x)))
      (fun e k => if i = k then op (e.2 * arg.get e.1) else 0) (by
        intro e he b hb
        rw [Tensor.Buf.read_eq (hbound e he), Option.bind_some, Tensor.Buf.addAt_eq (by rw [hb]; omega)]
        refine ⟨_, rfl, hb, fun p => ?_⟩
        by_cases hp : i = p
        · subst hp; simp
        · rw [if_neg hp, add_zero]
          exact Function.update_of_ne (fun h => hp h.symm) _ _) b hb
    refine ⟨r, r1, r2, fun p => ?_⟩
    rw [r3]
    by_cases hp : i = p
    · simp only [if_pos hp]
      congr 1
      have : ∀ j ∈ Finset.range arg.size, op (M i j * arg.get j) = (l.map fun e => if e.1 = j then op (e.2 * arg.get j) else 0).sum := by
        intro j _
        rw [sum_at hsort hmem (fun v => op (v * arg.get j)) (by simp [h0])]
      rw [Finset.sum_congr rfl this]
      clear this r1 r2 r3 hmem hsort e5 hl
      induction l with
      | nil => simp
      | cons e l ih =>
        simp only [List.map_cons, List.sum_cons]
        rw [Finset.sum_add_distrib, ← ih (fun e he => hbound e (List.mem_cons_of_mem _ he)), Finset.sum_ite_eq]
        · rw [if_pos (Finset.mem_range.2 (hbound e (List.mem_cons_self ..)))]
        all_goals assumption
    · simp only [if_neg hp]
      simp) out rfl
  refine ⟨r, h1, h2, fun i => ?_⟩
  rw [h3, sum_list_range]
  congr 1
  by_cases hi : i < m.rows
  · rw [if_pos hi, Finset.sum_eq_single i]
    · rw [if_pos rfl]
    · intro b _ hb; rw [if_neg hb]
    · intro h; exact absurd (Finset.mem_range.2 hi) h
  · rw [if_neg hi]
    apply Finset.sum_eq_zero
    intro b hb
    rw [if_neg]
    intro h
    subst h
    exact hi (Finset.mem_range.1 hb)

end

end RoughPy.Sparse
