import Verif.TensorFn.Spec
import Verif.Tensor.WordShuffle
import Verif.Tensor.ExpLog

namespace RoughPy.TensorFn

open Tensor Finset

variable {α κ K : Type} [DecidableEq α] [DecidableEq κ] [Field K] [DecidableEq K]

/-! ## Dictionaries -/

/-- Each key once. -/
abbrev Keyed (d : Dict κ K) : Prop := (d.map Prod.fst).Nodup

theorem val_of_not_mem {d : Dict κ K} {k : κ} (h : k ∉ d.map Prod.fst) : Dict.val d k = 0 := by
  induction d with
  | nil => rfl
  | cons e d ih =>
    simp only [List.map_cons, List.mem_cons, not_or] at h
    obtain ⟨k', v⟩ := e
    rw [Dict.val, if_neg (fun hh => h.1 hh.symm), ih h.2]

theorem val_of_mem {d : Dict κ K} (hd : Keyed d) {e : κ × K} (h : e ∈ d) : Dict.val d e.1 = e.2 := by
  induction d with
  | nil => simp at h
  | cons e' d ih =>
    obtain ⟨k', v⟩ := e'
    simp only [Keyed, List.map_cons, List.nodup_cons] at hd
    rcases List.mem_cons.1 h with rfl | h
    · simp [Dict.val]
    · have : k' ≠ e.1 := fun hh => hd.1 (hh ▸ List.mem_map_of_mem h)
      rw [Dict.val, if_neg this, ih hd.2 h]

theorem mem_keys_upsert (f : K → K) (v : K) (k k' : κ) (d : Dict κ K) :
    k' ∈ (Dict.upsert f v k d).map Prod.fst ↔ k' = k ∨ k' ∈ d.map Prod.fst := by
  induction d with
  | nil => simp [Dict.upsert]
  | cons e d ih =>
    obtain ⟨q, x⟩ := e
    by_cases h : q = k
    · subst h; simp [Dict.upsert]
    · rw [Dict.upsert, if_neg h, List.map_cons, List.mem_cons, ih, List.map_cons, List.mem_cons]
      tauto

theorem keyed_upsert (f : K → K) (v : K) (k : κ) {d : Dict κ K} (hd : Keyed d) :
    Keyed (Dict.upsert f v k d) := by
  induction d with
  | nil => simp [Dict.upsert, Keyed]
  | cons e d ih =>
    obtain ⟨q, x⟩ := e
    simp only [Keyed, List.map_cons, List.nodup_cons] at hd
    by_cases h : q = k
    · rw [Dict.upsert, if_pos h]; simpa [Keyed] using hd
    · rw [Dict.upsert, if_neg h]
      simp only [Keyed, List.map_cons, List.nodup_cons]
      refine ⟨fun hm => ?_, ih hd.2⟩
      rcases (mem_keys_upsert f v k q d).1 hm with hm | hm
      · exact h hm
      · exact hd.1 hm

theorem val_upsert (f : K → K) (v : K) (k k' : κ) (d : Dict κ K) :
    Dict.val (Dict.upsert f v k d) k'
      = if k = k' then (if k ∈ d.map Prod.fst then f (Dict.val d k) else v) else Dict.val d k' := by
  induction d with
  | nil => simp [Dict.upsert, Dict.val]
  | cons e d ih =>
    obtain ⟨q, x⟩ := e
    by_cases h : q = k
    · subst h
      rw [Dict.upsert, if_pos rfl]
      by_cases h' : q = k' <;> simp [Dict.val, h']
    · rw [Dict.upsert, if_neg h, Dict.val, ih]
      by_cases h' : k = k'
      · subst h'
        have h2 : ¬ k = q := fun hh => h hh.symm
        have h3 : (k ∈ ((q, x) :: d).map Prod.fst) = (k ∈ d.map Prod.fst) := by
          rw [List.map_cons, List.mem_cons]
          exact propext ⟨fun hh => hh.resolve_left h2, .inr⟩
        simp only [h3, if_true, if_neg h, Dict.val]
      · simp [Dict.val, h']

theorem val_add (d : Dict κ K) (k k' : κ) (v : K) :
    Dict.val (Dict.add d k v) k' = Dict.val d k' + if k = k' then v else 0 := by
  rw [Dict.add, val_upsert]
  by_cases h : k = k'
  · subst h
    by_cases hm : k ∈ d.map Prod.fst
    · simp [hm]
    · simp [hm, val_of_not_mem hm]
  · simp [h]

theorem keyed_add {d : Dict κ K} (hd : Keyed d) (k : κ) (v : K) : Keyed (Dict.add d k v) :=
  keyed_upsert _ _ _ hd

theorem keyed_nonzero {d : Dict κ K} (hd : Keyed d) : Keyed d.nonzero :=
  List.Nodup.sublist (List.Sublist.map _ List.filter_sublist) hd

theorem val_nonzero {d : Dict κ K} (hd : Keyed d) (k : κ) : Dict.val d.nonzero k = Dict.val d k := by
  induction d with
  | nil => rfl
  | cons e d ih =>
    obtain ⟨q, x⟩ := e
    have hd' := hd
    simp only [Keyed, List.map_cons, List.nodup_cons] at hd
    by_cases hx : x = 0
    · have h1 : Dict.nonzero ((q, x) :: d) = Dict.nonzero d := by simp [Dict.nonzero, hx]
      rw [h1, ih hd.2, Dict.val]
      by_cases h : q = k
      · rw [if_pos h, hx, val_of_not_mem (h ▸ hd.1)]
      · rw [if_neg h]
    · have h1 : Dict.nonzero ((q, x) :: d) = (q, x) :: Dict.nonzero d := by simp [Dict.nonzero, hx]
      rw [h1, Dict.val, Dict.val, ih hd.2]

theorem mem_nonzero {d : Dict κ K} {e : κ × K} : e ∈ d.nonzero ↔ e ∈ d ∧ e.2 ≠ 0 := by simp [Dict.nonzero]

/-- The sum of the entries of a key is the value. -/
theorem sum_ite_eq_val {d : Dict κ K} (hd : Keyed d) (k : κ) :
    (d.map fun e => if e.1 = k then e.2 else 0).sum = Dict.val d k := by
  induction d with
  | nil => rfl
  | cons e d ih =>
    obtain ⟨q, x⟩ := e
    simp only [Keyed, List.map_cons, List.nodup_cons] at hd
    rw [List.map_cons, List.sum_cons, ih hd.2, Dict.val]
    by_cases h : q = k
    · rw [if_pos h, if_pos h, val_of_not_mem (h ▸ hd.1), add_zero]
    · rw [if_neg h, if_neg h, zero_add]

section folds

variable {β : Type}

theorem val_foldl_add (f : β → κ) (g : β → K) (l : List β) (d : Dict κ K) (k : κ) :
    Dict.val (l.foldl (fun d e => Dict.add d (f e) (g e)) d) k
      = Dict.val d k + (l.map fun e => if f e = k then g e else 0).sum := by
  induction l generalizing d with
  | nil => simp
  | cons e l ih => rw [List.foldl_cons, ih, val_add, List.map_cons, List.sum_cons, add_assoc]

theorem keyed_foldl_add (f : β → κ) (g : β → K) (l : List β) {d : Dict κ K} (hd : Keyed d) :
    Keyed (l.foldl (fun d e => Dict.add d (f e) (g e)) d) := by
  induction l generalizing d with
  | nil => exact hd
  | cons e l ih => exact ih (keyed_add hd _ _)

theorem mem_keys_foldl_add (f : β → κ) (g : β → K) (l : List β) (d : Dict κ K) (k : κ) :
    k ∈ (l.foldl (fun d e => Dict.add d (f e) (g e)) d).map Prod.fst
      ↔ k ∈ d.map Prod.fst ∨ ∃ e ∈ l, f e = k := by
  induction l generalizing d with
  | nil => simp
  | cons e l ih =>
    rw [List.foldl_cons, ih, Dict.add, mem_keys_upsert]
    simp only [List.mem_cons, exists_eq_or_imp]
    constructor
    · rintro ((h | h) | h)
      · exact .inr (.inl h.symm)
      · exact .inl h
      · exact .inr (.inr h)
    · rintro (h | h | h)
      · exact .inl (.inr h)
      · exact .inl (.inl h.symm)
      · exact .inr h

end folds

/-! ## Products of tensors -/

/-- The pairing of a dictionary with a function on the keys. -/
def ev (d : Dict κ K) (G : κ → K) : K := (d.map fun e => e.2 * G e.1).sum

@[simp] theorem ev_nil (G : κ → K) : ev ([] : Dict κ K) G = 0 := rfl

@[simp] theorem ev_cons (e : κ × K) (d : Dict κ K) (G : κ → K) : ev (e :: d) G = e.2 * G e.1 + ev d G := by
  simp [ev]

theorem ev_congr {d : Dict κ K} {G H : κ → K} (h : ∀ e ∈ d, G e.1 = H e.1) : ev d G = ev d H := by
  unfold ev
  congr 1
  exact List.map_congr_left fun e he => by rw [h e he]

theorem ev_add_fun (d : Dict κ K) (G H : κ → K) : ev d (fun k => G k + H k) = ev d G + ev d H := by
  induction d with
  | nil => simp
  | cons e d ih => rw [ev_cons, ih, ev_cons, ev_cons]; ring

theorem ev_mul_fun (d : Dict κ K) (s : K) (G : κ → K) : ev d (fun k => s * G k) = s * ev d G := by
  induction d with
  | nil => simp
  | cons e d ih => rw [ev_cons, ih, ev_cons]; ring

theorem ev_zero_fun (d : Dict κ K) : ev d (fun _ => 0) = 0 := by
  induction d with
  | nil => simp
  | cons e d ih => rw [ev_cons, ih]; ring

theorem val_eq_ev {d : Dict κ K} (hd : Keyed d) (k : κ) :
    Dict.val d k = ev d fun q => if q = k then 1 else 0 := by
  rw [← sum_ite_eq_val hd, ev]
  congr 2
  funext e
  by_cases h : e.1 = k <;> simp [h]

theorem ev_add (d : Dict κ K) (k : κ) (v : K) (G : κ → K) : ev (Dict.add d k v) G = ev d G + v * G k := by
  induction d with
  | nil => simp [Dict.add, Dict.upsert]
  | cons e d ih =>
    obtain ⟨q, x⟩ := e
    rw [Dict.add, Dict.upsert]
    by_cases h : q = k
    · rw [if_pos h, ev_cons, ev_cons, h]; ring
    · rw [if_neg h, ev_cons, ev_cons]
      rw [Dict.add] at ih
      rw [ih]; ring

theorem ev_nonzero (d : Dict κ K) (G : κ → K) : ev d.nonzero G = ev d G := by
  induction d with
  | nil => rfl
  | cons e d ih =>
    by_cases h : e.2 = 0
    · have : Dict.nonzero (e :: d) = Dict.nonzero d := by simp [Dict.nonzero, h]
      rw [this, ih, ev_cons, h]; ring
    · have : Dict.nonzero (e :: d) = e :: Dict.nonzero d := by simp [Dict.nonzero, h]
      rw [this, ev_cons, ih, ev_cons]

theorem ev_foldl_add {β : Type} (f : β → κ) (g : β → K) (l : List β) (d : Dict κ K) (G : κ → K) :
    ev (l.foldl (fun d e => Dict.add d (f e) (g e)) d) G = ev d G + (l.map fun e => g e * G (f e)).sum := by
  induction l generalizing d with
  | nil => simp
  | cons e l ih => rw [List.foldl_cons, ih, ev_add, List.map_cons, List.sum_cons, add_assoc]

theorem eq_nil_of_val {d : Dict κ K} (hd : Keyed d) (hn : ∀ e ∈ d, e.2 ≠ 0) (h : ∀ k, Dict.val d k = 0) : d = [] := by
  cases d with
  | nil => rfl
  | cons e d => exact absurd ((val_of_mem hd (List.mem_cons_self)).symm.trans (h e.1)) (hn e List.mem_cons_self)

theorem keyed_addScalProd {a : Prod2 α K} (ha : Keyed a) (b : Prod2 α K) (s : K) :
    Keyed (Prod2.addScalProd a b s) :=
  keyed_nonzero (keyed_foldl_add _ _ _ ha)

theorem ev_addScalProd (a b : Prod2 α K) (s : K) (G : List α × List α → K) :
    ev (Prod2.addScalProd a b s) G = ev a G + s * ev b G := by
  rw [Prod2.addScalProd, ev_nonzero, ev_foldl_add]
  unfold ev
  rw [← List.sum_map_mul_left]
  congr 3
  funext e
  ring

theorem addScalProd_ne_zero (a b : Prod2 α K) (s : K) : ∀ e ∈ Prod2.addScalProd a b s, e.2 ≠ 0 :=
  fun _ he => (mem_nonzero.1 he).2

/-- The product of pairs of keys. -/
def pairMul (p q : List α × List α) : List α × List α := (keyMul p.1 q.1, keyMul p.2 q.2)

theorem ev_concatRow (k : List α × List α) (x : K) (b d : Prod2 α K) (G : List α × List α → K) :
    ev (concatRow k x b d) G = ev d G + x * ev b fun q => G (pairMul k q) := by
  rw [concatRow, ev_foldl_add]
  unfold ev
  rw [← List.sum_map_mul_left]
  congr 3
  funext e
  simp only [pairMul]; ring

theorem ev_concatProduct (a b : Prod2 α K) (G : List α × List α → K) :
    ev (concatProduct a b) G = ev a fun p => ev b fun q => G (pairMul p q) := by
  have h : ∀ d : Prod2 α K, ev (a.foldl (fun d e => concatRow e.1 e.2 b d) d) G
      = ev d G + ev a fun p => ev b fun q => G (pairMul p q) := by
    induction a with
    | nil => simp
    | cons e a ih => intro d; rw [List.foldl_cons, ih, ev_concatRow, ev_cons, add_assoc]
  rw [concatProduct, Prod2.ofDict, ev_nonzero, ev_nonzero, h]
  simp

theorem ev_letterAdj (a : α) (G : List α × List α → K) :
    ev (letterAdj a : Prod2 α K) G = G ([a], []) + G ([], [a]) := by
  rw [letterAdj, Prod2.ofDict, ev_nonzero]; simp

/-- Both words of a splitting, read backwards. -/
def rev2 (s : List α × List α) : List α × List α := (s.1.reverse, s.2.reverse)

theorem ev_foldl_letters (w : List α) (d : Prod2 α K) (G : List α × List α → K) :
    ev (w.foldl (fun d b => concatProduct d (letterAdj b)) d) G
      = ev d fun p => ((splittings w).map fun s => G (pairMul p (rev2 s))).sum := by
  induction w generalizing d with
  | nil =>
    rw [List.foldl_nil]
    refine ev_congr fun e _ => ?_
    simp [splittings, rev2, pairMul, keyMul]
  | cons a w ih =>
    rw [List.foldl_cons, ih, ev_concatProduct]
    refine ev_congr fun e _ => ?_
    rw [ev_letterAdj, splittings, List.map_append, List.sum_append, List.map_map, List.map_map]
    congr 2 <;>
    · refine List.map_congr_left fun s _ => ?_
      simp [rev2, pairMul, keyMul]

theorem ev_adjointOfWord (w : List α) (G : List α × List α → K) :
    ev (adjointOfWord w : Prod2 α K) G = ((splittings w).map fun s => G (rev2 s)).sum := by
  cases w with
  | nil => rw [adjointOfWord, Prod2.ofDict, ev_nonzero]; simp [splittings, rev2]
  | cons a w =>
    rw [adjointOfWord, ev_foldl_letters, ev_letterAdj, splittings, List.map_append, List.sum_append,
      List.map_map, List.map_map]
    congr 2 <;>
    · refine List.map_congr_left fun s _ => ?_
      simp [rev2, pairMul, keyMul]

theorem ev_adjointOfShuffle (x : Items α K) (G : List α × List α → K) :
    ev (adjointOfShuffle x) G = ev x fun w => ((splittings w).map fun s => G (rev2 s)).sum := by
  have h : ∀ d : Prod2 α K, ev (x.foldl (fun d e => Prod2.addScalProd d (adjointOfWord e.1) e.2) d) G
      = ev d G + ev x fun w => ((splittings w).map fun s => G (rev2 s)).sum := by
    induction x with
    | nil => simp
    | cons e x ih => intro d; rw [List.foldl_cons, ih, ev_addScalProd, ev_adjointOfWord, ev_cons, add_assoc]
  rw [adjointOfShuffle, h, Prod2.ofDict, ev_nonzero]
  simp

theorem keyed_adjointOfShuffle (x : Items α K) : Keyed (adjointOfShuffle x) := by
  have h : ∀ d : Prod2 α K, Keyed d →
      Keyed (x.foldl (fun d e => Prod2.addScalProd d (adjointOfWord e.1) e.2) d) := by
    induction x with
    | nil => exact fun d hd => hd
    | cons e x ih => exact fun d hd => ih _ (keyed_addScalProd hd _ _)
  exact h _ (by simp [Prod2.ofDict, Dict.nonzero, Keyed])

theorem adjointOfShuffle_ne_zero (x : Items α K) : ∀ e ∈ adjointOfShuffle x, e.2 ≠ 0 := by
  have h : ∀ d : Prod2 α K, (∀ e ∈ d, e.2 ≠ 0) →
      ∀ e ∈ x.foldl (fun d e => Prod2.addScalProd d (adjointOfWord e.1) e.2) d, e.2 ≠ 0 := by
    induction x with
    | nil => exact fun d hd => hd
    | cons e x ih => exact fun d hd => ih _ (addScalProd_ne_zero _ _ _)
  exact h _ (by simp [Prod2.ofDict, Dict.nonzero])

theorem sum_map_ite_eq_count {β : Type} [DecidableEq β] [BEq β] [LawfulBEq β] (l : List β) (b : β) :
    (l.map fun x => if x = b then (1 : K) else 0).sum = ((l.count b : ℕ) : K) := by
  induction l with
  | nil => simp
  | cons x l ih =>
    rw [List.map_cons, List.sum_cons, ih, List.count_cons]
    by_cases h : x = b <;> simp [h, add_comm]

theorem count_splittings (u v z : List α) :
    (((splittings z).count (u, v) : ℕ) : K) = (((shuffles u v).count z : ℕ) : K) := by
  rw [← shuffle_word, Series.shuffle, ← sum_map_ite_eq_count]
  congr 1
  refine List.map_congr_left fun s _ => ?_
  simp only [Series.word]
  by_cases h1 : s.1 = u <;> by_cases h2 : s.2 = v <;> simp [Prod.ext_iff, h1, h2]

theorem ev_count (x : Items α K) (hx : Keyed x) (l : List (List α)) :
    (ev x fun w => ((l.count w : ℕ) : K)) = (l.map fun z => Dict.val x z).sum := by
  induction l with
  | nil => simpa using ev_zero_fun x
  | cons z l ih =>
    rw [List.map_cons, List.sum_cons, ← ih, val_eq_ev hx, ← ev_add_fun]
    refine ev_congr fun e _ => ?_
    rw [List.count_cons]
    by_cases h : z = e.1
    · simp [h, add_comm]
    · have h' : ¬ e.1 = z := fun hh => h hh.symm
      simp [h, h']

/-- The adjoint of the shuffle product, with both words backwards. -/
theorem val_adjointOfShuffle {x : Items α K} (hx : Keyed x) (u v : List α) :
    Dict.val (adjointOfShuffle x) (u, v) = (series x).onShuffle u.reverse v.reverse := by
  rw [val_eq_ev (keyed_adjointOfShuffle x), ev_adjointOfShuffle, Series.onShuffle]
  show _ = ((shuffles u.reverse v.reverse).map fun z => Dict.val x z).sum
  rw [← ev_count x hx]
  refine ev_congr fun e _ => ?_
  rw [← count_splittings, ← sum_map_ite_eq_count]
  congr 1
  refine List.map_congr_left fun s _ => ?_
  have : rev2 s = (u, v) ↔ s = (u.reverse, v.reverse) := by
    rw [rev2, Prod.ext_iff, Prod.ext_iff]
    simp only [List.reverse_eq_iff]
  simp only [this]

/-! ## Convolution -/

theorem ofPair_one (u : List α) : (Items.ofPair u (1 : K)) = [(u, 1)] := by
  simp [Items.ofPair, Dict.nonzero]

theorem removeConstant_word (u : List α) :
    removeConstant [(u, (1 : K))] = some (if u = [] then [] else [(u, 1)]) := by
  by_cases h : u = []
  · subst h
    simp [removeConstant, Dict.val, Items.ofPair, Dict.nonzero, Items.sub, Dict.add, Dict.upsert]
  · simp [removeConstant, Dict.val, Items.ofPair, Dict.nonzero, Items.sub, h]

theorem productStep_remove (r : Prod2 α K) (e : (List α × List α) × K) :
    productStep removeConstant removeConstant r e
      = some (Prod2.addScalProd r
          (if e.1.1 = [] ∨ e.1.2 = [] then [] else [((e.1.1, e.1.2), 1)]) e.2) := by
  rw [productStep, ofPair_one, removeConstant_word, ofPair_one, removeConstant_word]
  by_cases h1 : e.1.1 = []
  · simp [h1, Prod2.ofPair]
  · by_cases h2 : e.1.2 = []
    · simp [h1, h2, Prod2.ofPair, Prod2.pairRow]
    · simp [h1, h2, Prod2.ofPair, Prod2.pairRow, Dict.upsert]

/-- What the loop computes with twice `_remove_constant`. -/
theorem productLoop_remove (l : Prod2 α K) (r : Prod2 α K) (hr : Keyed r) (hn : ∀ e ∈ r, e.2 ≠ 0) :
    ∃ r', productLoop removeConstant removeConstant r l = some r' ∧ Keyed r' ∧ (∀ e ∈ r', e.2 ≠ 0) ∧
      ∀ G, ev r' G = ev r G + ev l fun p => if p.1 = [] ∨ p.2 = [] then 0 else G p := by
  induction l generalizing r with
  | nil => exact ⟨r, rfl, hr, hn, fun G => by simp⟩
  | cons e l ih =>
    obtain ⟨r', h1, h2, h3, h4⟩ := ih (Prod2.addScalProd r
      (if e.1.1 = [] ∨ e.1.2 = [] then [] else [((e.1.1, e.1.2), 1)]) e.2) (keyed_addScalProd hr _ _)
      (addScalProd_ne_zero _ _ _)
    refine ⟨r', ?_, h2, h3, fun G => ?_⟩
    · rw [productLoop, productStep_remove, Option.bind_some, h1]
    · rw [h4, ev_addScalProd, ev_cons]
      by_cases h : e.1.1 = [] ∨ e.1.2 = []
      · simp [h]
      · rw [if_neg h, if_neg h]; simp; ring

theorem concatenate_eq_none {a : Prod2 α K} : concatenate a = none ↔ a = [] := by
  rw [concatenate, Items.ofDict]
  constructor
  · intro h
    cases a with
    | nil => rfl
    | cons e a =>
      exfalso
      have hk := (mem_keys_foldl_add (fun e : (List α × List α) × K => keyMul e.1.1 e.1.2) (fun e => e.2)
        (e :: a) [] (keyMul e.1.1 e.1.2)).2 (.inr ⟨e, List.mem_cons_self, rfl⟩)
      split_ifs at h with h0
      rw [h0] at hk
      simp at hk
  · rintro rfl; simp

theorem concatenate_some {a : Prod2 α K} {y : Items α K} (h : concatenate a = some y) :
    Keyed y ∧ (∀ e ∈ y, e.2 ≠ 0) ∧ ∀ G, ev y G = ev a fun p => G (p.2 ++ p.1) := by
  rw [concatenate, Items.ofDict] at h
  split_ifs at h with h0
  have h := Option.some.inj h
  subst h
  refine ⟨keyed_nonzero (keyed_foldl_add _ _ _ (by simp [Keyed])), fun e he => (mem_nonzero.1 he).2, fun G => ?_⟩
  rw [ev_nonzero, ev_foldl_add]
  simp [ev, keyMul]

/-- The convolution square of `_remove_constant` fails exactly if no word of the tensor can be split into two
non-empty words with a non-zero total. -/
theorem convolve_none {x : Items α K} (hx : Keyed x) :
    convolve removeConstant removeConstant x = none ↔
      ∀ u v : List α, u ≠ [] → v ≠ [] → (series x).onShuffle u v = 0 := by
  obtain ⟨r, h1, h2, h3, h4⟩ := productLoop_remove (adjointOfShuffle x) (Prod2.ofDict [])
    (by simp [Prod2.ofDict, Dict.nonzero, Keyed]) (by simp [Prod2.ofDict, Dict.nonzero])
  have hval : ∀ u v : List α, Dict.val r (u, v)
      = if u = [] ∨ v = [] then 0 else (series x).onShuffle u.reverse v.reverse := by
    intro u v
    rw [val_eq_ev h2, h4, Prod2.ofDict, ev_nonzero, ev_nil, zero_add]
    by_cases h : u = [] ∨ v = []
    · rw [if_pos h]
      refine (ev_congr fun e _ => ?_).trans (ev_zero_fun (adjointOfShuffle x))
      by_cases he : e.1 = (u, v)
      · rw [if_pos (by rw [he]; exact h)]
      · simp [he]
    · rw [if_neg h, ← val_adjointOfShuffle hx, val_eq_ev (keyed_adjointOfShuffle x)]
      refine ev_congr fun e _ => ?_
      by_cases he : e.1 = (u, v)
      · rw [if_neg (by rw [he]; exact h)]
      · simp [he]
  rw [convolve, h1, Option.bind_some, concatenate_eq_none]
  constructor
  · rintro rfl u v hu hv
    have := hval u.reverse v.reverse
    rw [if_neg (by simp [hu, hv])] at this
    simpa [Dict.val] using this.symm
  · intro h
    refine eq_nil_of_val h2 h3 fun k => ?_
    rw [← Prod.mk.eta (p := k), hval]
    split_ifs with hk
    · rfl
    · simp only [not_or] at hk
      exact h _ _ (by simpa using hk.1) (by simpa using hk.2)

theorem convolve_some {x y : Items α K} (h : convolve removeConstant removeConstant x = some y) :
    Keyed y ∧ ∀ G, ev y G = ev (adjointOfShuffle x) fun p => if p.1 = [] ∨ p.2 = [] then 0 else G (p.2 ++ p.1) := by
  obtain ⟨r, h1, h2, h3, h4⟩ := productLoop_remove (adjointOfShuffle x) (Prod2.ofDict [])
    (by simp [Prod2.ofDict, Dict.nonzero, Keyed]) (by simp [Prod2.ofDict, Dict.nonzero])
  rw [convolve, h1, Option.bind_some] at h
  obtain ⟨h5, -, h7⟩ := concatenate_some h
  refine ⟨h5, fun G => ?_⟩
  rw [h7, h4, Prod2.ofDict, ev_nonzero, ev_nil, zero_add]

/-- The coefficients of the convolution square in degree two. -/
theorem convolve_two {x y : Items α K} (hx : Keyed x) (h : convolve removeConstant removeConstant x = some y)
    (a b : α) : Dict.val y [a, b] = Dict.val x [a, b] + Dict.val x [b, a] := by
  obtain ⟨hy, hev⟩ := convolve_some h
  have h1 : Dict.val y [a, b] = Dict.val (adjointOfShuffle x) ([b], [a]) := by
    rw [val_eq_ev hy, hev, val_eq_ev (keyed_adjointOfShuffle x)]
    refine ev_congr fun e _ => ?_
    obtain ⟨⟨p, q⟩, c⟩ := e
    dsimp only
    by_cases hpq : p = [] ∨ q = []
    · rw [if_pos hpq, if_neg]
      rintro ⟨⟩
      simp at hpq
    · rw [if_neg hpq]
      simp only [not_or] at hpq
      have : q ++ p = [a, b] ↔ (p, q) = ([b], [a]) := by
        constructor
        · intro hh
          match q, p, hpq, hh with
          | [c], p, _, hh => simp at hh; simp [hh]
          | c :: c' :: q, p, hpq, hh =>
            simp at hh
            exact absurd hh.2.2.2 hpq.1
        · rintro ⟨⟩; rfl
      simp only [this]
  rw [h1, val_adjointOfShuffle hx]
  simp [Series.onShuffle, shuffles, series, add_comm]

/-- … and in all other degrees, for a tensor of depth two. -/
theorem convolve_other {x y : Items α K} (hx : ∀ e ∈ x, e.1.length ≤ 2)
    (h : convolve removeConstant removeConstant x = some y) (z : List α) (hz : z.length ≠ 2) : Dict.val y z = 0 := by
  obtain ⟨hy, hev⟩ := convolve_some h
  rw [val_eq_ev hy, hev, ev_adjointOfShuffle]
  refine (ev_congr fun e he => ?_).trans (ev_zero_fun x)
  apply List.sum_eq_zero
  intro c hc
  obtain ⟨s, hs, rfl⟩ := List.mem_map.1 hc
  have hl := splittings_length e.1 s hs
  have he' := hx e he
  by_cases h0 : (rev2 s).1 = [] ∨ (rev2 s).2 = []
  · rw [if_pos h0]
  · rw [if_neg h0, if_neg]
    intro hh
    have h1 : ((rev2 s).2 ++ (rev2 s).1).length = z.length := by rw [hh]
    simp only [rev2, List.length_append, List.length_reverse, not_or] at h1 h0
    have h2 : s.1.length ≠ 0 := fun h => h0.1 (by simpa using h)
    have h3 : s.2.length ≠ 0 := fun h => h0.2 (by simpa using h)
    omega

/-! ## Failure at greater depth -/

theorem productLoop_none {f g : Items α K → Option (Items α K)} {e : (List α × List α) × K}
    (he : ∀ r, productStep f g r e = none) (l : Prod2 α K) (hl : e ∈ l) (r : Prod2 α K) :
    productLoop f g r l = none := by
  induction l generalizing r with
  | nil => simp at hl
  | cons e' l ih =>
    rcases List.mem_cons.1 hl with rfl | hl
    · rw [productLoop, he]; rfl
    · rw [productLoop]
      cases productStep f g r e' with
      | none => rfl
      | some r' => exact ih hl r'

theorem convolve_empty_word : convolve removeConstant removeConstant [(([] : List α), (1 : K))] = none := by
  rw [convolve_none (by simp [Keyed])]
  intro u v hu hv
  rw [Series.onShuffle]
  apply List.sum_eq_zero
  intro c hc
  obtain ⟨z, hz, rfl⟩ := List.mem_map.1 hc
  have hl := Series.shuffles_length _ _ _ hz
  rw [series, Dict.val, if_neg]
  · rfl
  · rintro rfl
    have h2 : u.length ≠ 0 := fun h => hu (by simpa using h)
    simp only [List.length_nil] at hl
    omega

theorem convolve_three {x : Items α K} (hx : Keyed x) :
    convolve removeConstant (convolve removeConstant removeConstant) x = none := by
  rw [convolve]
  by_cases h0 : ∀ e ∈ x, e.2 = 0
  · have : adjointOfShuffle x = [] := by
      refine eq_nil_of_val (keyed_adjointOfShuffle x) (adjointOfShuffle_ne_zero x) fun k => ?_
      rw [val_eq_ev (keyed_adjointOfShuffle x), ev_adjointOfShuffle, ev]
      apply List.sum_eq_zero
      intro c hc
      obtain ⟨e, he, rfl⟩ := List.mem_map.1 hc
      rw [h0 e he, zero_mul]
    rw [this, productLoop, Option.bind_some, concatenate_eq_none]
    rfl
  · push Not at h0
    obtain ⟨e, he, hne⟩ := h0
    have h1 : Dict.val (adjointOfShuffle x) (e.1.reverse, []) = e.2 := by
      rw [val_adjointOfShuffle hx, List.reverse_reverse, List.reverse_nil, Series.onShuffle,
        show shuffles e.1 [] = [e.1] from by cases e.1 <;> rw [shuffles]]
      simpa [series] using val_of_mem hx he
    have h2 : (e.1.reverse, []) ∈ (adjointOfShuffle x).map Prod.fst := by
      by_contra hh
      exact hne (h1.symm.trans (val_of_not_mem hh))
    obtain ⟨e', he', hk⟩ := List.mem_map.1 h2
    rw [productLoop_none (e := e') _ _ he']
    · rfl
    · intro r
      have hk2 : e'.1.2 = [] := by rw [hk]
      rw [productStep, hk2, ofPair_one (u := []), convolve_empty_word]
      cases removeConstant (Items.ofPair e'.1.1 (1 : K)) <;> rfl

/-! ## Arithmetic of tensors -/

theorem keyed_ofPair (u : List α) (c : K) : Keyed (Items.ofPair u c) := keyed_nonzero (by simp [Keyed])

theorem val_ofPair (u z : List α) (c : K) : Dict.val (Items.ofPair u c) z = if u = z then c else 0 := by
  rw [Items.ofPair, val_nonzero (by simp [Keyed]), Dict.val, Dict.val]

theorem keyed_sub {x : Items α K} (hx : Keyed x) (y : Items α K) : Keyed (Items.sub x y) :=
  keyed_nonzero (keyed_foldl_add _ _ _ hx)

theorem val_sub {x y : Items α K} (hx : Keyed x) (hy : Keyed y) (z : List α) :
    Dict.val (Items.sub x y) z = Dict.val x z - Dict.val y z := by
  rw [Items.sub, val_nonzero (keyed_foldl_add _ _ _ hx), val_foldl_add, ← sum_ite_eq_val hy, sub_eq_add_neg]
  congr 1
  rw [← neg_one_mul, ← List.sum_map_mul_left]
  congr 2
  funext e
  by_cases h : e.1 = z <;> simp [h]

theorem keyed_sdiv {x : Items α K} (hx : Keyed x) (i : ℕ) : Keyed (Items.sdiv x i) := by
  simpa [Items.sdiv, Keyed, List.map_map, Function.comp_def] using hx

theorem val_sdiv (x : Items α K) (i : ℕ) (z : List α) : Dict.val (Items.sdiv x i) z = Dict.val x z / i := by
  induction x with
  | nil => simp [Items.sdiv, Dict.val]
  | cons e x ih =>
    rw [Items.sdiv] at ih ⊢
    rw [List.map_cons, Dict.val, ih, Dict.val]
    split_ifs <;> rfl

theorem removeConstant_some {x : Items α K} (hx : Keyed x) :
    ∃ y, removeConstant x = some y ∧ Keyed y ∧ ∀ z, Dict.val y z = if z = [] then 0 else Dict.val x z := by
  refine ⟨_, rfl, keyed_sub hx _, fun z => ?_⟩
  rw [val_sub hx (keyed_ofPair _ _), val_ofPair]
  by_cases h : z = []
  · subst h; simp
  · have h' : ¬ [] = z := fun hh => h hh.symm
    simp [h, h']

/-- `Log` at depth two. -/
theorem log_two {x : Items α K} (hx : Element 2 x) :
    (Log 2 x = none ↔ ∀ a b, Dict.val x [a, b] + Dict.val x [b, a] = 0) ∧
    ∀ y, Log 2 x = some y → Keyed y ∧ ∀ z, Dict.val y z =
      match z with
      | [] => 0
      | [a] => Dict.val x [a]
      | [a, b] => Dict.val x [a, b] - (Dict.val x [a, b] + Dict.val x [b, a]) / 2
      | _ => 0 := by
  obtain ⟨out, h1, h2, h3⟩ := removeConstant_some hx.keyed
  have hlog : Log 2 x = (convolve removeConstant removeConstant x).bind fun y =>
      some (Items.sub out (Items.sdiv y 2)) := by
    rw [Log, h1, Option.bind_some]
    simp only [Nat.add_one_sub_one, logLoop]
    rfl
  constructor
  · rw [hlog]
    constructor
    · intro h a b
      cases hc : convolve removeConstant removeConstant x with
      | some y => rw [hc] at h; simp at h
      | none =>
        have := (convolve_none hx.keyed).1 hc [a] [b] (by simp) (by simp)
        simpa [Series.onShuffle, shuffles, series] using this
    · intro h
      have : convolve removeConstant removeConstant x = none := by
        rw [convolve_none hx.keyed]
        intro u v hu hv
        by_cases hl : u.length + v.length = 2
        · match u, v, hu, hv, hl with
          | [a], [b], _, _, _ => simpa [Series.onShuffle, shuffles, series] using h a b
          | a :: a' :: u, b :: v, _, _, hl => simp at hl; omega
          | [a], b :: b' :: v, _, _, hl => simp at hl; omega
        · rw [Series.onShuffle]
          apply List.sum_eq_zero
          intro c hc
          obtain ⟨z, hz, rfl⟩ := List.mem_map.1 hc
          have hz' := Series.shuffles_length _ _ _ hz
          refine val_of_not_mem fun hm => ?_
          obtain ⟨e, he, rfl⟩ := List.mem_map.1 hm
          have h5 := hx.short e he
          have h6 : u.length ≠ 0 := fun h => hu (by simpa using h)
          have h7 : v.length ≠ 0 := fun h => hv (by simpa using h)
          omega
      rw [this]; rfl
  · intro y hy
    rw [hlog] at hy
    cases hc : convolve removeConstant removeConstant x with
    | none => rw [hc] at hy; simp at hy
    | some c =>
      rw [hc, Option.bind_some] at hy
      have hy := Option.some.inj hy
      subst hy
      have hck := (convolve_some hc).1
      refine ⟨keyed_sub h2 _, fun z => ?_⟩
      rw [val_sub h2 (keyed_sdiv hck _), val_sdiv, h3]
      match z with
      | [] => simp [convolve_other hx.short hc [] (by simp)]
      | [a] => simp [convolve_other hx.short hc [a] (by simp)]
      | [a, b] => simp [convolve_two hx.keyed hc]
      | a :: b :: c' :: z =>
        rw [convolve_other hx.short hc _ (by simp)]
        have : Dict.val x (a :: b :: c' :: z) = 0 := by
          refine val_of_not_mem fun hm => ?_
          obtain ⟨e, he, hh⟩ := List.mem_map.1 hm
          have h5 := hx.short e he
          rw [hh] at h5
          simp at h5
        simp [this]

/-! ## Products of two tensors -/

theorem pairRow_spec (u : List α) (x : K) {b : Items α K} (hb : Keyed b) (d : Prod2 α K) (hd : Keyed d) :
    Keyed (Prod2.pairRow u x b d) ∧ ∀ k : List α × List α, Dict.val (Prod2.pairRow u x b d) k
      = if k.1 = u ∧ k.2 ∈ b.map Prod.fst then x * Dict.val b k.2 else Dict.val d k := by
  induction b generalizing d with
  | nil => exact ⟨hd, fun k => by simp [Prod2.pairRow]⟩
  | cons e b ih =>
    obtain ⟨v, c⟩ := e
    have hb' := hb
    simp only [Keyed, List.map_cons, List.nodup_cons] at hb
    obtain ⟨h1, h2⟩ := ih hb.2 (Dict.upsert (fun _ => x * c) (x * c) (u, v) d) (keyed_upsert _ _ _ hd)
    refine ⟨h1, fun k => ?_⟩
    change Dict.val (Prod2.pairRow u x b (Dict.upsert (fun _ => x * c) (x * c) (u, v) d)) k = _
    rw [h2, val_upsert]
    by_cases hu : k.1 = u
    · by_cases hv : v = k.2
      · have : k.2 ∉ b.map Prod.fst := hv ▸ hb.1
        have hk : (u, v) = k := Prod.ext hu.symm hv
        have h3 : k.2 ∈ ((v, c) :: b).map Prod.fst := by rw [List.map_cons, hv]; exact List.mem_cons_self
        rw [if_neg (fun h => this h.2), if_pos hk, ite_self, if_pos ⟨hu, h3⟩, Dict.val, if_pos hv]
      · have hk : ¬ (u, v) = k := fun h => hv (by rw [← h])
        have h3 : k.2 ∈ ((v, c) :: b).map Prod.fst ↔ k.2 ∈ b.map Prod.fst := by
          rw [List.map_cons, List.mem_cons]
          exact ⟨fun h => h.resolve_left fun hh => hv hh.symm, .inr⟩
        rw [if_neg hk, Dict.val, if_neg hv]
        simp only [h3]
    · have hk : ¬ (u, v) = k := fun h => hu (by rw [← h])
      rw [if_neg (fun h => hu h.1), if_neg hk, if_neg (fun h => hu h.1)]

theorem ofPair_spec {a b : Items α K} (ha : Keyed a) (hb : Keyed b) :
    Keyed (Prod2.ofPair a b) ∧ ∀ u v, Dict.val (Prod2.ofPair a b) (u, v) = Dict.val a u * Dict.val b v := by
  have h : ∀ d : Prod2 α K, Keyed d → Keyed (a.foldl (fun d e => Prod2.pairRow e.1 e.2 b d) d) ∧
      ∀ k : List α × List α, Dict.val (a.foldl (fun d e => Prod2.pairRow e.1 e.2 b d) d) k
        = if k.1 ∈ a.map Prod.fst ∧ k.2 ∈ b.map Prod.fst then Dict.val a k.1 * Dict.val b k.2 else Dict.val d k := by
    induction a with
    | nil => exact fun d hd => ⟨hd, fun k => by simp⟩
    | cons e a ih =>
      obtain ⟨u, c⟩ := e
      simp only [Keyed, List.map_cons, List.nodup_cons] at ha
      intro d hd
      obtain ⟨h1, h2⟩ := pairRow_spec u c hb d hd
      obtain ⟨h3, h4⟩ := ih ha.2 _ h1
      refine ⟨h3, fun k => ?_⟩
      rw [List.foldl_cons, h4, h2]
      by_cases hu : u = k.1
      · have h5 : k.1 ∉ a.map Prod.fst := hu ▸ ha.1
        have h6 : k.1 ∈ ((u, c) :: a).map Prod.fst := by rw [List.map_cons, hu]; exact List.mem_cons_self
        rw [if_neg (fun h => h5 h.1), Dict.val, if_pos hu]
        by_cases h7 : k.2 ∈ b.map Prod.fst
        · rw [if_pos ⟨hu.symm, h7⟩, if_pos ⟨h6, h7⟩]
        · rw [if_neg (fun h => h7 h.2), if_neg (fun h => h7 h.2)]
      · have h5 : k.1 ∈ ((u, c) :: a).map Prod.fst ↔ k.1 ∈ a.map Prod.fst := by
          rw [List.map_cons, List.mem_cons]
          exact ⟨fun h => h.resolve_left fun hh => hu hh.symm, .inr⟩
        have h6 : ¬ k.1 = u := fun hh => hu hh.symm
        rw [if_neg (c := k.1 = u ∧ _) (fun h => h6 h.1), Dict.val, if_neg hu]
        simp only [h5]
  obtain ⟨h1, h2⟩ := h [] (by simp [Keyed])
  refine ⟨h1, fun u v => ?_⟩
  rw [Prod2.ofPair, h2]
  split_ifs with h3
  · rfl
  · rw [not_and_or] at h3
    rcases h3 with h3 | h3
    · rw [val_of_not_mem (d := a) h3, zero_mul]; rfl
    · rw [val_of_not_mem (d := b) h3, mul_zero]; rfl

theorem subScalDiv_eq (a b : Prod2 α K) (s : K) :
    Prod2.subScalDiv a b s = b.foldl (fun d e => Dict.add d e.1 (-(e.2 / s))) a := by
  rw [Prod2.subScalDiv]
  congr 1
  funext d e
  rw [Dict.add, neg_div]
  simp only [sub_eq_add_neg]

theorem val_foldl_scaled {a b : Prod2 α K} (hb : Keyed b) (c : K) (f : K → K) (hf : ∀ x, f x = c * x)
    (k : List α × List α) : Dict.val (b.foldl (fun d e => Dict.add d e.1 (f e.2)) a) k
      = Dict.val a k + c * Dict.val b k := by
  rw [val_foldl_add (fun e : (List α × List α) × K => e.1) (fun e => f e.2), ← sum_ite_eq_val hb,
    ← List.sum_map_mul_left]
  congr 3
  funext e
  by_cases h : e.1 = k <;> simp [h, hf]

theorem val_smul {a : Prod2 α K} (ha : Keyed a) (s : K) (k : List α × List α) :
    Keyed (Prod2.smul a s) ∧ Dict.val (Prod2.smul a s) k = Dict.val a k * s := by
  rw [Prod2.smul]
  by_cases h : s = 0
  · rw [if_pos h, h]; simp [Prod2.ofDict, Dict.nonzero, Dict.val, Keyed]
  · rw [if_neg h]
    have hk : Keyed (a.map fun e => (e.1, e.2 * s)) := by
      simpa [Keyed, List.map_map, Function.comp_def] using ha
    refine ⟨keyed_nonzero hk, ?_⟩
    rw [Prod2.ofDict, val_nonzero hk, ← sum_ite_eq_val hk, ← sum_ite_eq_val ha, ← List.sum_map_mul_right,
      List.map_map]
    congr 2
    funext e
    by_cases h : e.1 = k <;> simp [h]

end RoughPy.TensorFn
