import Verif.Keys.Lemmas
import Verif.Lite.HallRep

/-! # Properties of keys of the Lie basis (C120 to C124) -/

namespace RoughPy.Keys

open RoughPy.Lie (IsHallTable hallTable hallTable_isHall)
open RoughPy.Lite (keyAt Rep HallSet)

/-- The Hall set of a context. -/
theorem table_of {w depth : ℕ} {hs : HallSet} (hd : 1 ≤ depth) (h : HallSet.new w depth = some hs) :
    ∃ b : Lie.Basis, IsHallTable b ∧ Rep b hs ∧ b.width = w ∧ b.depth = depth := by
  obtain ⟨hs', h1, h2⟩ := Lite.new_rep w depth
  rw [h1, Option.some.injEq] at h
  subst h
  refine ⟨_, hallTable_isHall w (depth - 1), h2, rfl, ?_⟩
  show depth - 1 + 1 = depth
  omega

/-! ## C120 -/

/-- Which objects `LieKey(...)` accepts: nested lists of two with letters of sixteen bits; a single
letter must be a letter of the basis. -/
theorem C120_accepts_partial (w : ℕ) (o : Obj) : (∃ d, makeKey w o = .ok d) ↔
    ∃ t : Tree, o = t.obj ∧ t.Small ∧ ∀ l, t = .leaf l → l ≤ w := by
  constructor
  · rintro ⟨d, h⟩
    cases o with
    | int n =>
      unfold makeKey at h
      dsimp only at h
      cases hc : castLetter n with
      | error e => rw [hc] at h; cases h
      | ok l =>
        rw [hc] at h
        obtain ⟨rfl, h2⟩ := castLetter_ok.1 hc
        refine ⟨.leaf l, rfl, small_leaf.2 h2, ?_⟩
        intro m hm
        injection hm with hm
        subst hm
        by_contra hlt
        have h' : (if w < l then .error .value else pure [ofLetter l] : Except Err (List ℕ)) = .ok d := h
        rw [if_pos (by omega)] at h'
        cases h'
    | pair l r =>
      obtain ⟨t, h1, h2, -⟩ := parseSingle_ok (show parseSingle (.pair l r) = .ok d from h)
      refine ⟨t, h1, h2, ?_⟩
      rintro m rfl
      cases h1
    | list => cases h
    | other => cases h
  · rintro ⟨t, rfl, h1, h2⟩
    cases t with
    | leaf l =>
      refine ⟨[ofLetter l], ?_⟩
      show (do let l ← castLetter (l : ℤ); if w < l then .error .value else pure [ofLetter l]) = _
      rw [castLetter_ok.2 ⟨rfl, small_leaf.1 h1⟩]
      show (if w < l then .error .value else pure [ofLetter l] : Except Err (List ℕ)) = _
      rw [if_neg (by have := h2 l rfl; omega)]
      rfl
    | node a b => exact ⟨_, parseSingle_obj h1⟩

theorem makeKey_ok {w : ℕ} {o : Obj} {d : List ℕ} (h : makeKey w o = .ok d) :
    ∃ t : Tree, o = t.obj ∧ t.Small ∧ d = enc t := by
  cases o with
  | int n =>
    unfold makeKey at h
    dsimp only at h
    cases hc : castLetter n with
    | error e => rw [hc] at h; cases h
    | ok l =>
      rw [hc] at h
      obtain ⟨rfl, h2⟩ := castLetter_ok.1 hc
      have h' : (if w < l then .error .value else pure [ofLetter l] : Except Err (List ℕ)) = .ok d := h
      by_cases hlt : w < l
      · rw [if_pos hlt] at h'; cases h'
      · rw [if_neg hlt] at h'
        injection h' with h'
        exact ⟨.leaf l, rfl, small_leaf.2 h2, h'.symm⟩
  | pair l r => exact parseSingle_ok (show parseSingle (.pair l r) = .ok d from h)
  | list => cases h
  | other => cases h

/-- The text of a key that is built from a nested list is that list. -/
theorem C120_text (w : ℕ) (t : Tree) (d : List ℕ) (h : makeKey w t.obj = .ok d) :
    toStr d = some t.text := by
  obtain ⟨u, h1, h2, rfl⟩ := makeKey_ok h
  have : ∀ t u : Tree, t.obj = u.obj → t = u := by
    intro t
    induction t with
    | leaf l =>
      intro u hu
      cases u with
      | leaf m =>
        have hu' : (l : ℤ) = (m : ℤ) := Obj.int.inj hu
        rw [show l = m by omega]
      | node _ _ => cases hu
    | node a b iha ihb =>
      intro u hu
      cases u with
      | leaf m => cases hu
      | node c e =>
        have hu' : Obj.pair a.obj b.obj = Obj.pair c.obj e.obj := hu
        injection hu' with h1 h2
        rw [iha c h1, ihb e h2]
  rw [this t u h1, toStr_enc h2]

/-- Keys with the same text come from the same nested list. -/
theorem C120_text_injective (w w' : ℕ) (o o' : Obj) (d d' : List ℕ) (h : makeKey w o = .ok d)
    (h' : makeKey w' o' = .ok d') (he : toStr d = toStr d') : o = o' := by
  obtain ⟨t, rfl, h2, rfl⟩ := makeKey_ok h
  obtain ⟨u, rfl, h4, rfl⟩ := makeKey_ok h'
  rw [toStr_enc h2, toStr_enc h4, Option.some.injEq] at he
  rw [text_inj he]

example : ∃ d, makeKey 2 (Tree.node (.leaf 1) (.node (.leaf 1) (.leaf 2))).obj = .ok d ∧
    toStr d = some "[1,[1,2]]".toList := by
  refine ⟨[3, 2, 3, 5], by decide, by decide⟩

/-- In a list every sixteen bit number is taken for a letter, also zero and letters the basis does not
have; a single letter is checked from above only. -/
theorem C120_letters_refuted (w : ℕ) (hw : w < 2 ^ 16 - 1) :
    (∃ d, makeKey w (Tree.node (.leaf 0) (.leaf (w + 1))).obj = .ok d) ∧
    (∃ d, makeKey w (Tree.leaf 0).obj = .ok d) ∧ ¬ ∃ d, makeKey w (Tree.leaf (w + 1)).obj = .ok d := by
  refine ⟨(C120_accepts_partial w _).2 ⟨_, rfl, ?_, ?_⟩, (C120_accepts_partial w _).2 ⟨_, rfl, ?_, ?_⟩, ?_⟩
  · exact small_node.2 ⟨small_leaf.2 (by omega), small_leaf.2 (by omega)⟩
  · intro l h; cases h
  · exact small_leaf.2 (by omega)
  · intro l h; injection h with h; omega
  · intro h
    obtain ⟨t, h1, -, h3⟩ := (C120_accepts_partial w _).1 h
    cases t with
    | node a b => cases h1
    | leaf l =>
      have h1' : ((w + 1 : ℕ) : ℤ) = (l : ℤ) := Obj.int.inj h1
      have := h3 l rfl
      omega

/-! ## C121 -/

/-- Iterating over a basis gives the Hall brackets up to the depth, each once and in order; `str` of a
key and the text used when an element is printed are the text of the bracket, whatever texts were asked
for before. -/
theorem C121_iterate_partial (w depth dim n : ℕ) (hs : HallSet) (hw : w < 2 ^ 16) (hd : 1 ≤ depth)
    (h : HallSet.new w depth = some hs) (hdim : dimension hs depth = some dim) (h64 : dim < 2 ^ 64 - 1)
    (hn : dim < n) : ∃ ts : List Tree,
    ((newIter dim 1 (2 ^ 64 - 1)).take n).map (fun k => (keyOf hs k).bind toStr)
      = ts.map (fun t => some t.text) ∧
    ts.Pairwise Tree.lt ∧ (∀ t, t ∈ ts ↔ HallTree w t ∧ t.degree ≤ depth) ∧ ts.length = dim := by
  obtain ⟨b, hb, hr, rfl, rfl⟩ := table_of hd h
  rw [dimension_eq hb hr, Option.some.injEq] at hdim
  have hl := hb.one_le_length
  have htake : (newIter dim 1 (2 ^ 64 - 1)).take n = List.range' 1 dim := by
    unfold newIter
    rw [if_pos (by omega), take_eq (by omega) n 1 (by omega) (by omega), Nat.add_sub_cancel]
  rw [htake]
  have : Nonempty Tree := ⟨.leaf 0⟩
  choose! f hf using fun k (hk : 0 < k ∧ k < b.data.length) => TreeAt.exists hb k hk.1 hk.2
  refine ⟨(List.range' 1 dim).map f, ?_, ?_, ?_, ?_⟩
  · rw [List.map_map]
    apply List.map_congr_left
    intro k hk
    rw [List.mem_range'_1] at hk
    have ht := hf k ⟨by omega, by omega⟩
    rw [keyOf_eq hb hr hw ht]
    exact toStr_enc (ht.small hb hw)
  · rw [List.pairwise_map]
    refine List.Pairwise.imp_of_mem ?_ (List.pairwise_lt_range' (s := 1) (n := dim) (step := 1))
    intro k k' hk hk' hlt
    rw [List.mem_range'_1] at hk hk'
    exact ((hf k ⟨by omega, by omega⟩).lt_iff hb (hf k' ⟨by omega, by omega⟩)).1 hlt
  · intro t
    rw [← treeAt_hall hb, List.mem_map]
    constructor
    · rintro ⟨k, hk, rfl⟩
      rw [List.mem_range'_1] at hk
      exact ⟨k, hf k ⟨by omega, by omega⟩⟩
    · rintro ⟨k, hk⟩
      have hbd := hk.bounds hb
      refine ⟨k, ?_, (hf k hbd).unique hb hk⟩
      rw [List.mem_range'_1]
      omega
  · rw [List.length_map, List.length_range']

/-- Iterating from `start` to `stop`, which is included. -/
theorem C121_range (dim start stop n : ℕ) (hdim : dim < 2 ^ 64 - 1) (hs : start ≤ min dim stop + 1)
    (hn : min dim stop < start + n) :
    (newIter dim start stop).take n = List.range' start (min dim stop + 1 - start) := by
  unfold newIter
  have : (if dim < stop then dim else stop) = min dim stop := by
    by_cases h : dim < stop
    · rw [if_pos h]; omega
    · rw [if_neg h]; omega
  rw [this]
  exact take_eq (by omega) n start hs hn

example : (newIter 8 2 4).take 100 = [2, 3, 4] := by decide
example : (newIter 3 2 4).take 100 = [2, 3] := by decide

/-- Texts used when elements are printed: those that `str` gives for the keys of an iteration, whatever
was asked for before and in whichever order the parts of a bracket are evaluated. -/
theorem C121_texts (w depth dim : ℕ) (hs : HallSet) (leftFirst : Bool) (ks : List ℕ) (hw : w < 2 ^ 16)
    (hd : 1 ≤ depth) (h : HallSet.new w depth = some hs) (hdim : dimension hs depth = some dim)
    (hk : ∀ k ∈ ks, 1 ≤ k ∧ k ≤ dim) : ∃ c, ∃ texts : List (List Char),
    textsOf leftFirst hs ks = some (texts, c) ∧
    ks.map (fun k => (keyOf hs k).bind toStr) = texts.map some := by
  obtain ⟨b, hb, hr, rfl, rfl⟩ := table_of hd h
  rw [dimension_eq hb hr, Option.some.injEq] at hdim
  have hl := hb.one_le_length
  obtain ⟨ts, c, h1, h2, -⟩ := textsOf_eq hb hr leftFirst ks fun k hk' => by
    have := hk k hk'
    omega
  refine ⟨c, _, h1, ?_⟩
  clear h1 hk
  induction h2 with
  | nil => rfl
  | cons ht _ ih =>
    rw [List.map_cons, List.map_cons, List.map_cons, ih, keyOf_eq hb hr hw ht]
    simp only [Option.bind_some]
    rw [toStr_enc (ht.small hb hw)]

/-- The Hall set of width two and depth three. -/
def hs23 : HallSet := (HallSet.new 2 3).getD (HallSet.letters 0)

theorem hs23_eq : HallSet.new 2 3 = some hs23 := by
  obtain ⟨hs, h, -⟩ := Lite.new_rep 2 3
  unfold hs23
  rw [h]
  rfl

example : dimension hs23 3 = some 5 ∧
    ((newIter 5 1 (2 ^ 64 - 1)).take 10).map (fun k => (keyOf hs23 k).bind toStr) =
      ["1", "2", "[1,2]", "[1,[1,2]]", "[2,[1,2]]"].map (fun s => some s.toList) := by decide +kernel

example : (textsOf true hs23 [5, 3, 4]).map Prod.fst =
    some (["[2,[1,2]]", "[1,2]", "[1,[1,2]]"].map String.toList) := by decide +kernel

/-- The number `0`, which is what `LieKeyIterator(basis, 0)` starts with, and numbers past the last key
are not rejected: the recursion that builds the key does not end. -/
theorem C121_bounds_refuted (w depth dim : ℕ) (hs : HallSet) (hd : 1 ≤ depth)
    (h : HallSet.new w depth = some hs) (hdim : dimension hs depth = some dim) (h64 : dim < 2 ^ 64) (k : ℕ)
    (hk : k = 0 ∨ dim < k) (fuel : ℕ) : parseKey hs fuel k = none := by
  obtain ⟨b, hb, hr, rfl, rfl⟩ := table_of hd h
  rw [dimension_eq hb hr, Option.some.injEq] at hdim
  have hl := hb.one_le_length
  exact parseKey_out hb hr (by omega) fuel k (by omega)

example : 0 ∈ (newIter 5 0 (2 ^ 64 - 1)).take 10 := by decide

/-! ## C122 -/

/-- The coefficient of a letter is looked up under the number of the letter. -/
theorem C122_letter_partial (w depth : ℕ) (hs : HallSet) (hw : w < 2 ^ 16) (hd : 1 ≤ depth)
    (h : HallSet.new w depth = some hs) (l : ℕ) (h1 : 1 ≤ l) (h2 : l ≤ w) :
    ∃ d, keyOf hs l = some d ∧ toStr d = some (Tree.leaf l).text ∧ makeKey w (Tree.leaf l).obj = .ok d ∧
      toKey hs d = some l := by
  obtain ⟨b, hb, hr, rfl, rfl⟩ := table_of hd h
  have ht : TreeAt b l (.leaf l) := .leaf h1 h2
  refine ⟨_, keyOf_eq hb hr hw ht, toStr_enc (ht.small hb hw), ?_, ?_⟩
  · obtain ⟨d, hd⟩ := (C120_accepts_partial b.width (Tree.leaf l).obj).2
      ⟨_, rfl, small_leaf.2 (by omega), fun m hm => by injection hm with hm; omega⟩
    obtain ⟨u, g1, -, rfl⟩ := makeKey_ok hd
    cases u with
    | node _ _ => cases g1
    | leaf m =>
      have g1' : (l : ℤ) = (m : ℤ) := Obj.int.inj g1
      have e : l = m := by omega
      subst e
      exact hd
  · show some (offset (ofLetter l)) = _
    rw [offset_ofLetter]

/-- The key number that `element[key]` looks up is wrong for every bracket: key number `k > w`, whether
it comes from an iteration or from the nested list with the same text, gives another number. -/
theorem C122_lookup_refuted (w depth dim : ℕ) (hs : HallSet) (hw : w < 2 ^ 16) (hd : 1 ≤ depth)
    (h : HallSet.new w depth = some hs) (hdim : dimension hs depth = some dim) (h64 : dim < 2 ^ 64) (k : ℕ)
    (h1 : w < k) (h2 : k ≤ dim) :
    ∃ d x t, keyOf hs k = some d ∧ toStr d = some (Tree.text t) ∧ makeKey w t.obj = .ok d ∧
      toKey hs d = some x ∧ x ≠ k := by
  obtain ⟨b, hb, hr, rfl, rfl⟩ := table_of hd h
  rw [dimension_eq hb hr, Option.some.injEq] at hdim
  have hl := hb.one_le_length
  obtain ⟨t, ht⟩ := TreeAt.exists hb k (by omega) (by omega)
  have hnode : ∃ a c, t = .node a c := by
    cases ht with
    | leaf _ g => omega
    | node _ _ _ _ => exact ⟨_, _, rfl⟩
  obtain ⟨a, c, rfl⟩ := hnode
  obtain ⟨x, hx, hne⟩ := toKey_ne hb hr (by omega) ht
  have hs' := ht.small hb hw
  exact ⟨_, x, _, keyOf_eq hb hr hw ht, toStr_enc hs', parseSingle_obj hs', hx, hne⟩

/-- `element[LieKey([1, 2])]` is the coefficient of the letter `1`. -/
example : (keyOf hs23 3).bind toStr = some "[1,2]".toList ∧ (keyOf hs23 3).bind (toKey hs23) = some 1 := by
  decide +kernel

/-! ## C123 -/

/-- The degree of a key is the number of its letters. -/
theorem C123_degree (w : ℕ) (t : Tree) (d : List ℕ) (h : makeKey w t.obj = .ok d) : degree d = t.degree := by
  have h1 := C120_text w t d h
  obtain ⟨u, -, h3, rfl⟩ := makeKey_ok h
  rw [toStr_enc h3, Option.some.injEq] at h1
  rw [degree_enc, text_inj h1]

/-- What `==` compares: only how often one can go left in the two parts, and the letters found there.
So equal brackets are equal, but not only those. -/
theorem C123_equals_partial (w w' : ℕ) (a b c e : Tree) (d d' : List ℕ)
    (h : makeKey w (Tree.node a b).obj = .ok d) (h' : makeKey w' (Tree.node c e).obj = .ok d') :
    equals d d' = some (decide (a.spine = c.spine ∧ b.spine = e.spine)) := by
  have h1 := C120_text w _ d h
  have h1' := C120_text w' _ d' h'
  obtain ⟨u, -, h3, rfl⟩ := makeKey_ok h
  obtain ⟨u', -, h3', rfl⟩ := makeKey_ok h'
  rw [toStr_enc h3, Option.some.injEq] at h1
  rw [toStr_enc h3', Option.some.injEq] at h1'
  have e1 := text_inj h1
  have e2 := text_inj h1'
  subst e1 e2
  exact equals_eq h3 h3'

/-- `[1,[1,2]] == [1,[1,3]]`. -/
theorem C123_equals_refuted : ∃ d d', makeKey 3 (Tree.node (.leaf 1) (.node (.leaf 1) (.leaf 2))).obj = .ok d ∧
    makeKey 3 (Tree.node (.leaf 1) (.node (.leaf 1) (.leaf 3))).obj = .ok d' ∧ toStr d ≠ toStr d' ∧
    equals d d' = some true :=
  ⟨[3, 2, 3, 5], [3, 2, 3, 7], by decide, by decide, by decide, by decide⟩

/-- Comparing a letter with itself reads past the end of the array. -/
theorem C123_letter_equals_refuted (w l : ℕ) (d : List ℕ) (h : makeKey w (Tree.leaf l).obj = .ok d) :
    equals d d = none := by
  have h1 := C120_text w _ d h
  obtain ⟨u, -, h3, rfl⟩ := makeKey_ok h
  rw [toStr_enc h3, Option.some.injEq] at h1
  have e1 := text_inj h1
  subst e1
  show equals [ofLetter l] [ofLetter l] = none
  unfold equals branchesEqual
  simp [isOffset_letter]

example : ∃ d, makeKey 3 (Tree.leaf 2).obj = .ok d := ⟨[5], by decide⟩

/-- The parts of a key, if they are letters, pairs of letters, or a letter and a pair of letters. -/
theorem C123_parts_partial (w : ℕ) (a b : Tree) (d : List ℕ) (h : makeKey w (Tree.node a b).obj = .ok d) :
    (a.Flat → (trimBranch d 0).bind toStr = some a.text) ∧
    (b.Flat → (trimBranch d 1).bind toStr = some b.text) := by
  have h1 := C120_text w _ d h
  obtain ⟨u, -, h3, rfl⟩ := makeKey_ok h
  rw [toStr_enc h3, Option.some.injEq] at h1
  have e1 := text_inj h1
  subst e1
  constructor
  · intro hf
    rw [trimBranch_flat hf (Or.inl ⟨rfl, rfl⟩)]
    exact toStr_enc (small_node.1 h3).1
  · intro hf
    rw [trimBranch_flat hf (Or.inr ⟨rfl, rfl⟩)]
    exact toStr_enc (small_node.1 h3).2

/-- The left part of `[[[1,2],3],4]` has the text `[[3,1],3]`; the right part of `[1,[1,[1,[1,2]]]]` cannot be
written as text, since it points past the end of its array. -/
theorem C123_parts_refuted :
    (∃ d, makeKey 4 (Tree.node (.node (.node (.leaf 1) (.leaf 2)) (.leaf 3)) (.leaf 4)).obj = .ok d ∧
      (trimBranch d 0).bind toStr = some "[[3,1],3]".toList) ∧
    ∃ d e, makeKey 2 (Tree.node (.leaf 1) (.node (.leaf 1) (.node (.leaf 1) (.node (.leaf 1) (.leaf 2))))).obj
      = .ok d ∧ trimBranch d 1 = some e ∧ toStr e = none :=
  ⟨⟨_, rfl, by decide⟩, _, _, rfl, rfl, by decide⟩

/-! ## C124 -/

/-- `index_to_key` gives the keys in the order of the brackets. -/
theorem C124_index_to_key_partial (w depth dim n : ℕ) (hs : HallSet) (hd : 1 ≤ depth)
    (h : HallSet.new w depth = some hs) (hdim : dimension hs depth = some dim) (h64 : dim < 2 ^ 64)
    (hn : n < dim) : indexToKey hs n = keyOf hs (n + 1) := by
  obtain ⟨b, hb, hr, rfl, rfl⟩ := table_of hd h
  rw [dimension_eq hb hr, Option.some.injEq] at hdim
  have hl := hb.one_le_length
  have ht := toImpl_keyAt hb hr (k := n + 1) (by omega) (by omega)
  unfold toImpl at ht
  rw [if_neg (by omega), Nat.add_sub_cancel] at ht
  unfold indexToKey
  rw [ht]
  simp only [Option.bind_eq_bind, Option.bind_some]
  rw [fromImpl_keyAt hb hr (by omega) (by omega)]
  rfl

/-- `index_to_key(dimension)` is not rejected: it asks for the key with the number after the last one,
for which the recursion does not end. -/
theorem C124_index_to_key_refuted (w depth dim n : ℕ) (hs : HallSet) (hd : 1 ≤ depth)
    (h : HallSet.new w depth = some hs) (hdim : dimension hs depth = some dim) (h64 : dim < 2 ^ 64)
    (hn : dim ≤ n) : indexToKey hs n = none := by
  obtain ⟨b, hb, hr, rfl, rfl⟩ := table_of hd h
  rw [dimension_eq hb hr, Option.some.injEq] at hdim
  have hl := hb.one_le_length
  unfold indexToKey
  rw [keyOfIndex_big hb hr (by omega)]
  simp only [Option.bind_eq_bind, Option.bind_some]
  rw [fromImpl_root hb hr]
  exact parseKey_out hb hr (by omega) _ _ (Or.inr le_rfl)

/-- `key_to_index` and `parents` do not look at the key: every key gets the dimension as its index, and
twice the number after the last key as its parents. -/
theorem C124_key_to_index_refuted (w depth dim : ℕ) (hs : HallSet) (hd : 1 ≤ depth)
    (h : HallSet.new w depth = some hs) (hdim : dimension hs depth = some dim) (h64 : dim < 2 ^ 64)
    (key : List ℕ) : keyToIndex hs key = some dim ∧ keyParents hs key = some (dim + 1, dim + 1) := by
  obtain ⟨b, hb, hr, rfl, rfl⟩ := table_of hd h
  rw [dimension_eq hb hr, Option.some.injEq] at hdim
  have hl := hb.one_le_length
  constructor
  · unfold keyToIndex
    rw [toImpl_out hb hr (by omega) (Or.inl rfl)]
    simp only [Option.bind_eq_bind, Option.bind_some]
    show (hs.sizes.getLast?.bind fun s => some (0 + s)) = _
    rw [size_last hb hr, hdim]
    simp only [Option.bind_some, Nat.zero_add]
  · unfold keyParents
    rw [parents_out hb hr (by omega) (Or.inl rfl), ← hdim, Nat.sub_add_cancel hl]

example : ∃ d, keyOf hs23 1 = some d ∧ keyToIndex hs23 d = some 5 ∧ (indexToKey hs23 0) = some d := by
  refine ⟨[3], ?_, ?_, ?_⟩ <;> decide +kernel

end RoughPy.Keys
