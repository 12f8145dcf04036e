import Verif.ElemIter.Spec
import Mathlib.Data.Int.Notation

/-!
# Properties of iterating over an element in Python

Vocabulary: `Verif/ElemIter/Spec.lean`.
-/

namespace RoughPy.ElemIter

variable {α : Type}

/-! ## Helper lemmas -/

/-- The position of an iterator that has handed out `n` of `m` entries: at the next entry before the first
call and at the end, else at the last entry handed out. -/
def PosOk (m n p : ℕ) (first : Bool) : Prop :=
  n ≤ m ∧ ((first = true ∧ p = n) ∨ (first = false ∧ p + 1 = n))

/-- Iterator `k` has its own interface, and stands where it should. -/
def ItOk (l : List α) (pos : List ℕ) (k : ℕ) (s : It) (t : ℕ × Bool) : Prop :=
  s.it = some k ∧ s.last = some l.length ∧ s.held = t.2 ∧
    ∃ p, pos[k]? = some p ∧ PosOk l.length t.1 p s.firstOrDone

/-- The item shares the interface of its iterator, which stands at the item's entry while it is fresh. -/
def ItemOk (l : List α) (pos : List ℕ) (i : ℕ) (h : Handed α) : Prop :=
  i = h.owner ∧ (h.fresh = true → ∃ p : ℕ, pos[h.owner]? = some p ∧ l[p]? = some h.entry)

structure Rel (l : List α) (w : World) (v : Ideal α) : Prop where
  named : w.named = v.named
  plen : w.pos.length = w.its.length
  ilen : w.its.length = v.its.length
  its : ∀ (k : ℕ) (s : It) (t : ℕ × Bool), w.its[k]? = some s → v.its[k]? = some t → ItOk l w.pos k s t
  mlen : w.items.length = v.items.length
  items : ∀ (j i : ℕ) (h : Handed α), w.items[j]? = some i → v.items[j]? = some h → ItemOk l w.pos i h

theorem start_rel (l : List α) : Rel l start (Ideal.start α) where
  named := rfl
  plen := rfl
  ilen := rfl
  its := by simp [start]
  mlen := rfl
  items := by simp [start]

theorem Rel.iter {l : List α} {w : World} {v : Ideal α} (r : Rel l w v) :
    Rel l (iter (some l) w).1 (v.step l .iter).1 ∧ (ElemIter.iter (some l) w).2 = (v.step l .iter).2 := by
  have hn := r.named
  unfold ElemIter.iter Ideal.step
  cases hv : v.named
  · rw [hv] at hn
    simp only [hn, hv]
    exact ⟨r, rfl⟩
  · rw [hv] at hn
    simp only [hn, hv, if_true]
    refine ⟨⟨rfl, by simp [r.plen], by simp [r.ilen], ?_, r.mlen, ?_⟩, trivial⟩
    · intro k s t hs ht
      dsimp only at hs ht
      rcases Nat.lt_trichotomy k w.its.length with h | h | h
      · rw [List.getElem?_append_left h] at hs
        rw [List.getElem?_append_left (by rw [← r.ilen]; exact h)] at ht
        obtain ⟨a, b, c, p, hp, hq⟩ := r.its k s t hs ht
        exact ⟨a, b, c, p, by
          dsimp only
          rw [List.getElem?_append_left (by rw [r.plen]; exact h)]; exact hp, hq⟩
      · subst h
        have h2 : w.its.length = v.its.length := r.ilen
        rw [List.getElem?_append_right (Nat.le_refl _)] at hs
        rw [List.getElem?_append_right (by omega)] at ht
        simp only [Nat.sub_self, List.getElem?_cons_zero, Option.some.injEq] at hs
        rw [h2] at ht
        simp only [Nat.sub_self, List.getElem?_cons_zero, Option.some.injEq] at ht
        subst hs; subst ht
        refine ⟨by simp [r.plen], rfl, rfl, 0, ?_, Nat.zero_le _, Or.inl ⟨rfl, rfl⟩⟩
        dsimp only
        rw [← r.plen, List.getElem?_append_right (Nat.le_refl _)]
        simp
      · have : (w.its ++ [(⟨some w.pos.length, some l.length, true, true⟩ : It)])[k]? = none := by
          rw [List.getElem?_eq_none_iff]; simp; omega
        rw [this] at hs
        cases hs
    · intro j i h hi hh
      obtain ⟨a, b⟩ := r.items j i h hi hh
      refine ⟨a, fun hf => ?_⟩
      obtain ⟨p, hp, hq⟩ := b hf
      refine ⟨p, ?_, hq⟩
      have hlt : h.owner < w.pos.length := (List.getElem?_eq_some_iff.mp hp).1
      dsimp only
      rw [List.getElem?_append_left hlt]
      exact hp

/-- Asking an iterator leaves the items of the others as they are. -/
theorem stale_ok {l : List α} {pos pos' : List ℕ} {k i j : ℕ} {h : Handed α} {items : List (Handed α)}
    (hpos : ∀ m, m ≠ k → pos'[m]? = pos[m]?)
    (ok : ∀ h, items[j]? = some h → ItemOk l pos i h) (hh : (stale k items)[j]? = some h) :
    ItemOk l pos' i h := by
  simp only [stale, List.getElem?_map, Option.map_eq_some_iff] at hh
  obtain ⟨g, hg, rfl⟩ := hh
  obtain ⟨a, b⟩ := ok g hg
  by_cases ho : g.owner = k
  · simp only [ho, if_true]
    exact ⟨by simpa [ho] using a, by simp⟩
  · simp only [ho, if_false]
    refine ⟨a, fun hf => ?_⟩
    obtain ⟨p, hp, hq⟩ := b hf
    exact ⟨p, by rw [hpos _ ho]; exact hp, hq⟩

theorem set_its {l : List α} {w : World} {v : Ideal α} (r : Rel l w v) {pos : List ℕ} {k : ℕ} {s' : It}
    {tl : List (ℕ × Bool)} (hpos : ∀ m, m ≠ k → pos[m]? = w.pos[m]?)
    (htl : ∀ m, m ≠ k → tl[m]? = v.its[m]?)
    (hk : ∀ t, tl[k]? = some t → ItOk l pos k s' t) :
    ∀ (m : ℕ) (s : It) (t : ℕ × Bool), (w.its.set k s')[m]? = some s → tl[m]? = some t →
      ItOk l pos m s t := by
  intro m s t hs ht
  by_cases hm : m = k
  · subst hm
    have hlt : m < w.its.length := by
      have := (List.getElem?_eq_some_iff.mp hs).1
      simpa using this
    rw [List.getElem?_set_self hlt] at hs
    cases hs
    exact hk t ht
  · rw [List.getElem?_set_ne (Ne.symm hm)] at hs
    rw [htl m hm] at ht
    obtain ⟨a, b, c, p, hp, hq⟩ := r.its m s t hs ht
    exact ⟨a, b, c, p, by rw [hpos m hm]; exact hp, hq⟩

theorem Rel.next {l : List α} {w : World} {v : Ideal α} (r : Rel l w v) (k : ℕ) :
    Rel l (next (α := α) k w).1 (v.step l (.next k)).1 ∧
      (ElemIter.next (α := α) k w).2 = (v.step l (.next k)).2 := by
  unfold ElemIter.next Ideal.step
  rcases hs : w.its[k]? with _ | s
  · have : v.its[k]? = none := by
      rw [List.getElem?_eq_none_iff] at hs ⊢
      rw [← r.ilen]; exact hs
    simp only [this]
    exact ⟨r, trivial⟩
  · have hk : k < w.its.length := (List.getElem?_eq_some_iff.mp hs).1
    obtain ⟨t, ht⟩ : ∃ t, v.its[k]? = some t :=
      ⟨_, List.getElem?_eq_getElem (by rw [← r.ilen]; exact hk)⟩
    obtain ⟨hit, hlast, hheld, p, hp, hle, hq⟩ := r.its k s t hs ht
    obtain ⟨n, b⟩ := t
    dsimp only at hheld hle hq
    simp only [ht]
    cases b
    · simp only [hheld]
      exact ⟨r, rfl⟩
    · simp only [hheld, if_true, hit, hlast]
      have hkp : k < w.pos.length := by rw [r.plen]; exact hk
      -- the position after moving on is the number of entries handed out
      have key : ∃ pos : List ℕ, (if s.firstOrDone = true then w.pos else advance w.pos (some k)) = pos ∧
          pos[k]? = some n ∧ (∀ m, m ≠ k → pos[m]? = w.pos[m]?) ∧ pos.length = w.pos.length := by
        refine ⟨_, rfl, ?_⟩
        rcases hq with ⟨hf, e⟩ | ⟨hf, e⟩
        · simp only [hf, if_true]
          exact ⟨by rw [hp, e], fun _ _ => trivial, trivial⟩
        · simp only [hf, advance]
          refine ⟨?_, fun m hm => ?_, ?_⟩
          · simp [List.getElem?_modify, hp, e]
          · simp [List.getElem?_modify, Ne.symm hm]
          · simp
      obtain ⟨pos, hpe, hpk, hpo, hpl⟩ := key
      rw [hpe]
      by_cases he : n = l.length
      · have hsame : same pos (some k) (some l.length) = true := by simp [same, hpk, he]
        have hnone : l[n]? = none := by rw [he]; simp
        simp only [hsame, if_true, hnone]
        refine ⟨⟨r.named, by simp [hpl, r.plen], by simp [r.ilen], ?_, by simp [stale, r.mlen], ?_⟩,
          trivial⟩
        · refine set_its r hpo (fun _ _ => rfl) (fun t' ht' => ?_)
          rw [ht] at ht'
          cases ht'
          exact ⟨rfl, rfl, rfl, n, hpk, hle, Or.inl ⟨rfl, rfl⟩⟩
        · intro j i h hi hh
          exact stale_ok hpo (fun g hg => r.items j i g hi hg) hh
      · have hlt : n < l.length := by omega
        have hsame : same pos (some k) (some l.length) = false := by
          simp only [same, hpk]
          simpa using he
        have hsome : l[n]? = some l[n] := List.getElem?_eq_getElem hlt
        simp only [hsame, hsome, Bool.false_eq_true, if_false]
        refine ⟨⟨r.named, by simp [hpl, r.plen], by simp [r.ilen], ?_, by simp [stale, r.mlen], ?_⟩, trivial⟩
        · refine set_its r hpo (fun m hm => List.getElem?_set_ne (Ne.symm hm)) (fun t' ht' => ?_)
          rw [List.getElem?_set_self (by rw [← r.ilen]; exact hk)] at ht'
          cases ht'
          exact ⟨rfl, rfl, rfl, n, hpk, hlt, Or.inr ⟨rfl, rfl⟩⟩
        · intro j i h hi hh
          have hml : w.items.length = (stale k v.items).length := by simp [stale, r.mlen]
          rcases Nat.lt_or_ge j w.items.length with hj | hj
          · have hi' : w.items[j]? = some i := by
              rw [← hi]; exact (List.getElem?_append_left hj).symm
            have hh' : (stale k v.items)[j]? = some h := by
              rw [← hh]; exact (List.getElem?_append_left (by rw [← hml]; exact hj)).symm
            exact stale_ok hpo (fun g hg => r.items j i g hi' hg) hh'
          · dsimp only at hi hh
            rw [List.getElem?_append_right hj] at hi
            rw [List.getElem?_append_right (by rw [← hml]; exact hj), ← hml] at hh
            rcases hd : j - w.items.length with _ | d
            · rw [hd] at hi hh
              simp only [List.getElem?_cons_zero, Option.some.injEq] at hi hh
              subst hi; subst hh
              exact ⟨rfl, fun _ => ⟨n, hpk, hsome⟩⟩
            · rw [hd] at hi
              simp at hi

theorem Rel.drop {l : List α} {w : World} {v : Ideal α} (r : Rel l w v) (k : ℕ) :
    Rel l (dropIter (α := α) k w).1 (v.step l (.dropIter k)).1 := by
  refine ⟨r.named, by simp [dropIter, r.plen], by simp [dropIter, Ideal.step, r.ilen], ?_, r.mlen, r.items⟩
  intro m s t hs ht
  simp only [dropIter, Ideal.step, List.getElem?_modify] at hs ht
  rcases hs1 : w.its[m]? with _ | s1
  · rw [hs1] at hs; cases hs
  · rcases ht1 : v.its[m]? with _ | t1
    · rw [ht1] at ht; cases ht
    · obtain ⟨a, b, c, d⟩ := r.its m s1 t1 hs1 ht1
      rw [hs1] at hs
      rw [ht1] at ht
      by_cases hm : k = m
      · simp only [hm, if_true] at hs ht
        cases hs; cases ht
        exact ⟨a, b, rfl, d⟩
      · simp only [hm, if_false] at hs ht
        cases hs; cases ht
        exact ⟨a, b, c, d⟩

theorem Rel.alive {l : List α} {w : World} {v : Ideal α} (r : Rel l w v) :
    w.alive = (v.named || v.its.any (·.2)) := by
  have : w.its.map (·.held) = v.its.map (·.2) := by
    apply List.ext_getElem?
    intro k
    simp only [List.getElem?_map]
    rcases hs : w.its[k]? with _ | s
    · have : v.its[k]? = none := by
        rw [List.getElem?_eq_none_iff] at hs ⊢
        rw [← r.ilen]; exact hs
      rw [this]; rfl
    · obtain ⟨t, ht⟩ : ∃ t, v.its[k]? = some t :=
        ⟨_, List.getElem?_eq_getElem (by rw [← r.ilen]; exact (List.getElem?_eq_some_iff.mp hs).1)⟩
      rw [ht]
      simp [(r.its k s t hs ht).2.2.1]
  have h2 : w.its.any (·.held) = v.its.any (·.2) := by
    have := congrArg (fun l : List Bool => l.any id) this
    simpa [List.any_map, Function.comp_def] using this
  simp [World.alive, r.named, h2]

theorem Rel.read {l : List α} {w : World} {v : Ideal α} (r : Rel l w v) (j : ℕ)
    (hj : ∀ h, v.items[j]? = some h → h.fresh = true ∧ (v.named || v.its.any (·.2)) = true) :
    ElemIter.read (some l) j w = (v.step l (.read j)).2 := by
  unfold ElemIter.read Ideal.step
  rcases hi : w.items[j]? with _ | i
  · have : v.items[j]? = none := by
      rw [List.getElem?_eq_none_iff] at hi ⊢
      rw [← r.mlen]; exact hi
    simp [this]
  · obtain ⟨h, hh⟩ : ∃ h, v.items[j]? = some h :=
      ⟨_, List.getElem?_eq_getElem (by rw [← r.mlen]; exact (List.getElem?_eq_some_iff.mp hi).1)⟩
    obtain ⟨hf, ha⟩ := hj h hh
    obtain ⟨e, hp⟩ := r.items j i h hi hh
    obtain ⟨p, hp, hq⟩ := hp hf
    rw [← r.alive] at ha
    subst e
    simp [hh, hp, ha, hq]

theorem run_eq {l : List α} (os : List Op) : ∀ {w : World} {v : Ideal α}, Rel l w v → Prompt l v os →
    run (some l) w os = Ideal.run l v os := by
  induction os with
  | nil => intros; rfl
  | cons o os ih =>
    intro w v r hp
    cases o with
    | iter =>
      obtain ⟨a, b⟩ := r.iter
      simp only [run, Ideal.run, step]
      rw [b, ih a hp]
    | next k =>
      obtain ⟨a, b⟩ := r.next k
      simp only [run, Ideal.run, step]
      rw [b, ih a hp]
    | read j =>
      obtain ⟨h1, h2⟩ := hp
      have e : (v.step l (.read j)).1 = v := by
        unfold Ideal.step
        dsimp only
        split <;> rfl
      simp only [run, Ideal.run, step]
      rw [r.read j h1, e, ih r h2]
    | dropElem =>
      simp only [run, Ideal.run, step]
      have r' : Rel l ⟨w.pos, w.its, w.items, false⟩ (v.step l .dropElem).1 :=
        ⟨rfl, r.plen, r.ilen, r.its, r.mlen, r.items⟩
      rw [ih r' hp]
      rfl
    | dropIter k =>
      simp only [run, Ideal.run, step]
      rw [ih (r.drop k) hp]
      rfl

/-- What a loop sees in an element whose first entries were already handed out -/
theorem loop_ideal (l : List α) (named : Bool) : ∀ (n m : ℕ), m + n = l.length →
    ∀ items : List (Handed α), items.length = m →
    Ideal.run l ⟨[(m, true)], items, named⟩ (forLoop n m) =
        ((l.drop m).flatMap fun x => [Seen.item, .entry x]) ++ [.stop] ∧
      Prompt l ⟨[(m, true)], items, named⟩ (forLoop n m) := by
  intro n
  induction n with
  | zero =>
    intro m hm items _
    have h : l[m]? = none := by simp; omega
    have h2 : l.drop m = [] := by simp; omega
    simp [forLoop, Ideal.run, Ideal.step, h, h2, Prompt]
  | succ n ih =>
    intro m hm items hi
    have hlt : m < l.length := by omega
    have h : l[m]? = some l[m] := List.getElem?_eq_getElem hlt
    have hread : (stale 0 items ++ [(⟨0, l[m], true⟩ : Handed α)])[m]? = some ⟨0, l[m], true⟩ := by
      rw [List.getElem?_append_right (by simp [stale, hi])]
      simp [stale, hi]
    obtain ⟨a, b⟩ := ih (m + 1) (by omega) (stale 0 items ++ [⟨0, l[m], true⟩]) (by simp [stale, hi])
    constructor
    · rw [List.drop_eq_getElem_cons hlt]
      simp only [forLoop, Ideal.run, Ideal.step, List.getElem?_cons_zero, h, List.set_cons_zero, hread]
      rw [a]
      simp only [List.flatMap_cons, List.cons_append, List.nil_append]
    · simp only [forLoop, Prompt, Ideal.step, List.getElem?_cons_zero, h, List.set_cons_zero, hread]
      refine ⟨?_, b⟩
      intro g hg
      cases hg
      simp

/-! ## C165 -/

/-- **C165** (in part): for an element with storage and every program that calls `iter` and `next` as it
likes and with any number of iterators at once, what it sees is what Python promises: an iterator hands out
the entries of the element one by one, then stops for good, and an item is the entry it was handed out for.

Missing: only for programs that read an item before its iterator is asked for more and while the element or
an iterator of it has a name, see `C165_items_refuted` and `C165_temporary_refuted`; and not for elements
without storage, see `C165_no_storage_refuted`. -/
theorem C165_iterate_partial (l : List α) (os : List Op) (h : Prompt l (Ideal.start α) os) :
    run (some l) start os = Ideal.run l (Ideal.start α) os :=
  run_eq os (start_rel l) h

/-- Two iterators of one element at once: each item is read before its own iterator goes on. -/
example : Prompt [10, 20] (Ideal.start ℤ) [.iter, .next 0, .iter, .next 1, .read 0, .next 0, .read 1,
      .read 2, .dropElem, .next 0, .next 0, .next 1, .read 3] ∧
    Ideal.run [10, 20] (Ideal.start ℤ) [.iter, .next 0, .iter, .next 1, .read 0, .next 0, .read 1,
      .read 2, .dropElem, .next 0, .next 0, .next 1, .read 3] =
    [.done, .item, .done, .item, .entry 10, .item, .entry 10, .entry 20, .done, .stop, .stop, .item,
      .entry 20] := by
  constructor
  · simp [Prompt, Ideal.step, Ideal.start, stale]
  · decide

/-- **C165** (in part): a `for` loop that reads each item as it comes, whether or not the element has
another name, sees exactly the stored entries in order and then ends. -/
theorem C165_loop_partial (l : List α) (temporary : Bool) :
    run (some l) start (.iter :: (if temporary then [.dropElem] else []) ++ forLoop l.length 0) =
      .done :: (if temporary then [.done] else []) ++
        (l.flatMap fun x => [.item, .entry x]) ++ [.stop] := by
  have h := fun named => loop_ideal l named l.length 0 (by omega) [] rfl
  cases temporary
  · rw [C165_iterate_partial]
    · have := (h true).1
      simp only [List.drop_zero] at this
      simp only [Bool.false_eq_true, if_false, List.append_nil, List.cons_append, List.nil_append, Ideal.run,
        Ideal.step, Ideal.start, if_true, this]
    · exact (h true).2
  · rw [C165_iterate_partial]
    · have := (h false).1
      simp only [List.drop_zero] at this
      simp only [if_true, List.cons_append, List.nil_append, Ideal.run,
        Ideal.step, Ideal.start, this]
    · exact (h false).2

example : run (some [(1, 5), (3, -2)]) start (.iter :: forLoop 2 0) =
    ([.done, .item, .entry (1, 5), .item, .entry (3, -2), .stop] : List (Seen (ℕ × ℤ))) := by decide

/-- **C165** fails as stated: an item kept while the iterator goes on turns into the next entry, and after
the loop, as in `list(element)`, reading any item is undefined behaviour. -/
theorem C165_items_refuted :
    (∃ os, run (some [(1 : ℤ), 2]) start os = [.done, .item, .item, .entry 2] ∧
      Ideal.run [1, 2] (Ideal.start ℤ) os = [.done, .item, .item, .entry 1]) ∧
    ∃ os, run (some [(1 : ℤ), 2]) start os = [.done, .item, .item, .stop, .undefined] ∧
      Ideal.run [1, 2] (Ideal.start ℤ) os = [.done, .item, .item, .stop, .entry 1] :=
  ⟨⟨[.iter, .next 0, .next 0, .read 0], by decide⟩,
    ⟨[.iter, .next 0, .next 0, .next 0, .read 0], by decide⟩⟩

/-- **C165** fails as stated: the item of a temporary element, as in `next(iter(a * b))`, does not keep the
element alive, so reading it is undefined behaviour. -/
theorem C165_temporary_refuted :
    ∃ os, run (some [(1 : ℤ)]) start os = [.done, .item, .done, .done, .undefined] ∧
      Ideal.run [1] (Ideal.start ℤ) os = [.done, .item, .done, .done, .entry 1] :=
  ⟨[.iter, .next 0, .dropElem, .dropIter 0, .read 0], by decide⟩

/-- **C165** fails as stated: iterating over an element without storage raises an error each time, where
an element with no entries just ends. -/
theorem C165_no_storage_refuted :
    run (none : Option (List ℤ)) start [.iter, .next 0, .next 0] = [.done, .error, .error] ∧
      run (some ([] : List ℤ)) start [.iter, .next 0, .next 0] = [.done, .stop, .stop] := by
  decide

end RoughPy.ElemIter
