import Mathlib.Order.Defs.LinearOrder
import Mathlib.Data.List.Pairwise
import Mathlib.Data.List.Basic
import Mathlib.Order.Basic

/-!
# Ordered maps

`std::map<Key, T>` as the list of its entries in increasing key order: iteration visits the
entries in list order, lookups and updates go by key.
-/

namespace RoughPy.Lite

variable {κ V : Type}

/-- `std::map<κ, V>`: entries in iteration order. -/
abbrev SMap (κ V : Type) := List (κ × V)

namespace SMap
variable [LinearOrder κ]

/-- `map.find(k)`, with `none` for `end()`. -/
def find : SMap κ V → κ → Option V
  | [], _ => none
  | (k', v) :: m, k => if k = k' then some v else find m k

/-- `map[k] = v` / `insert` of a new key: the entry is placed at its position in key order. -/
def set : SMap κ V → κ → V → SMap κ V
  | [], k, v => [(k, v)]
  | (k', v') :: m, k, v =>
    if k = k' then (k, v) :: m
    else if k < k' then (k, v) :: (k', v') :: m
    else (k', v') :: set m k v

/-- `map.erase(find(k))`. -/
def erase : SMap κ V → κ → SMap κ V
  | [], _ => []
  | (k', v') :: m, k => if k = k' then m else (k', v') :: erase m k

/-- keys strictly increase (the representation invariant of `std::map`) -/
def Sorted (m : SMap κ V) : Prop := m.Pairwise fun a b => a.1 < b.1

theorem sorted_nil : Sorted ([] : SMap κ V) := List.Pairwise.nil

theorem Sorted.tail {e : κ × V} {m : SMap κ V} (h : Sorted (e :: m)) : Sorted m :=
  (List.pairwise_cons.1 h).2

theorem Sorted.head_lt {e : κ × V} {m : SMap κ V} (h : Sorted (e :: m)) : ∀ x ∈ m, e.1 < x.1 :=
  (List.pairwise_cons.1 h).1

theorem find_eq_none_of_forall {m : SMap κ V} {k : κ} (h : ∀ x ∈ m, x.1 ≠ k) :
    find m k = none := by
  induction m with
  | nil => rfl
  | cons e m ih =>
    obtain ⟨k', v⟩ := e
    rw [find, if_neg (fun hh => h _ (List.mem_cons_self ..) hh.symm)]
    exact ih fun x hx => h x (List.mem_cons_of_mem _ hx)

theorem mem_of_find {m : SMap κ V} {k : κ} {v : V} (h : find m k = some v) : (k, v) ∈ m := by
  induction m with
  | nil => simp [find] at h
  | cons e m ih =>
    obtain ⟨k', v'⟩ := e
    rw [find] at h
    by_cases hk : k = k'
    · rw [if_pos hk] at h
      cases h; subst hk
      exact List.mem_cons_self ..
    · rw [if_neg hk] at h
      exact List.mem_cons_of_mem _ (ih h)

theorem find_of_mem {m : SMap κ V} (hs : Sorted m) {k : κ} {v : V} (h : (k, v) ∈ m) :
    find m k = some v := by
  induction m with
  | nil => simp at h
  | cons e m ih =>
    obtain ⟨k', v'⟩ := e
    rw [find]
    rcases List.mem_cons.1 h with h | h
    · cases h; rw [if_pos rfl]
    · have := hs.head_lt _ h
      rw [if_neg (ne_of_gt this)]
      exact ih hs.tail h

theorem mem_iff_find {m : SMap κ V} (hs : Sorted m) {k : κ} {v : V} :
    (k, v) ∈ m ↔ find m k = some v := ⟨find_of_mem hs, mem_of_find⟩

theorem find_none_of_lt {m : SMap κ V} {k : κ} (h : ∀ x ∈ m, k < x.1) : find m k = none :=
  find_eq_none_of_forall fun x hx => ne_of_gt (h x hx)

theorem mem_set {m : SMap κ V} {k : κ} {v : V} {x : κ × V} (h : x ∈ set m k v) :
    x = (k, v) ∨ x ∈ m := by
  induction m with
  | nil => simpa [set] using h
  | cons e m ih =>
    obtain ⟨k', v'⟩ := e
    rw [set] at h
    split_ifs at h with h1 h2
    · rcases List.mem_cons.1 h with h | h
      · exact Or.inl h
      · exact Or.inr (List.mem_cons_of_mem _ h)
    · rcases List.mem_cons.1 h with h | h
      · exact Or.inl h
      · exact Or.inr h
    · rcases List.mem_cons.1 h with h | h
      · exact Or.inr (h ▸ List.mem_cons_self ..)
      · rcases ih h with h | h
        · exact Or.inl h
        · exact Or.inr (List.mem_cons_of_mem _ h)

theorem sorted_set {m : SMap κ V} (hs : Sorted m) (k : κ) (v : V) : Sorted (set m k v) := by
  induction m with
  | nil => exact List.pairwise_singleton _ _
  | cons e m ih =>
    obtain ⟨k', v'⟩ := e
    rw [set]
    split_ifs with h1 h2
    · subst h1
      exact List.pairwise_cons.2 ⟨hs.head_lt, hs.tail⟩
    · refine List.pairwise_cons.2 ⟨fun x hx => ?_, hs⟩
      rcases List.mem_cons.1 hx with rfl | hx
      · exact h2
      · exact lt_trans h2 (hs.head_lt _ hx)
    · refine List.pairwise_cons.2 ⟨fun x hx => ?_, ih hs.tail⟩
      rcases mem_set hx with rfl | hx
      · exact lt_of_le_of_ne (not_lt.1 h2) (Ne.symm h1)
      · exact hs.head_lt _ hx

theorem find_set {m : SMap κ V} (hs : Sorted m) (k : κ) (v : V) (k₁ : κ) :
    find (set m k v) k₁ = if k₁ = k then some v else find m k₁ := by
  induction m with
  | nil => simp [set, find]
  | cons e m ih =>
    obtain ⟨k', v'⟩ := e
    rw [set]
    split_ifs with h1 h2 h3 h4 h5
    · subst h1; subst h2; simp [find]
    · subst h1; simp [find, h2]
    · subst h4; simp [find]
    · rw [find, if_neg h4]
    · subst h5
      rw [find, if_neg h1, ih hs.tail, if_pos rfl]
    · rw [find, find, ih hs.tail, if_neg h5]

theorem mem_erase {m : SMap κ V} {k : κ} {x : κ × V} (h : x ∈ erase m k) : x ∈ m := by
  induction m with
  | nil => simp [erase] at h
  | cons e m ih =>
    obtain ⟨k', v'⟩ := e
    rw [erase] at h
    split_ifs at h with h1
    · exact List.mem_cons_of_mem _ h
    · rcases List.mem_cons.1 h with rfl | h
      · exact List.mem_cons_self ..
      · exact List.mem_cons_of_mem _ (ih h)

theorem sorted_erase {m : SMap κ V} (hs : Sorted m) (k : κ) : Sorted (erase m k) := by
  induction m with
  | nil => exact hs
  | cons e m ih =>
    obtain ⟨k', v'⟩ := e
    rw [erase]
    split_ifs with h1
    · exact hs.tail
    · exact List.pairwise_cons.2 ⟨fun x hx => hs.head_lt _ (mem_erase hx), ih hs.tail⟩

theorem find_erase {m : SMap κ V} (hs : Sorted m) (k k₁ : κ) :
    find (erase m k) k₁ = if k₁ = k then none else find m k₁ := by
  induction m with
  | nil => simp [erase, find]
  | cons e m ih =>
    obtain ⟨k', v'⟩ := e
    rw [erase]
    split_ifs with h1 h2 h3
    · subst h1; subst h2
      exact find_none_of_lt hs.head_lt
    · subst h1; rw [find, if_neg h2]
    · subst h3
      rw [find, if_neg h1, ih hs.tail, if_pos rfl]
    · rw [find, find, ih hs.tail, if_neg h3]

/-- a sorted map is determined by its lookups -/
theorem ext {m n : SMap κ V} (hm : Sorted m) (hn : Sorted n)
    (h : ∀ k, find m k = find n k) : m = n := by
  induction m generalizing n with
  | nil =>
    cases n with
    | nil => rfl
    | cons e n =>
      have := h e.1
      rw [find_of_mem hn (List.mem_cons_self ..)] at this
      simp [find] at this
  | cons e m ih =>
    cases n with
    | nil =>
      have := h e.1
      rw [find_of_mem hm (List.mem_cons_self ..)] at this
      simp [find] at this
    | cons e' n =>
      have h1 : e ∈ e' :: n := mem_of_find ((h e.1).symm.trans
        (find_of_mem hm (List.mem_cons_self ..)))
      have h2 : e' ∈ e :: m := mem_of_find ((h e'.1).trans
        (find_of_mem hn (List.mem_cons_self ..)))
      have hee : e = e' := by
        rcases List.mem_cons.1 h1 with h1 | h1
        · exact h1
        · rcases List.mem_cons.1 h2 with h2 | h2
          · exact h2.symm
          · exact absurd (lt_trans (hn.head_lt _ h1) (hm.head_lt _ h2)) (lt_irrefl _)
      subst hee
      congr 1
      refine ih hm.tail hn.tail fun k => ?_
      have hk := h k
      obtain ⟨k', v'⟩ := e
      rw [find, find] at hk
      by_cases hkk : k = k'
      · subst hkk
        rw [find_none_of_lt hm.head_lt, find_none_of_lt hn.head_lt]
      · rwa [if_neg hkk, if_neg hkk] at hk

end SMap

end RoughPy.Lite
