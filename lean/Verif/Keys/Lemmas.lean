import Verif.Keys.Table

/-! # Keys of the basis, their texts and numbers -/

namespace RoughPy.Keys

open RoughPy.Lie (IsHallTable HasDegree hallTable hallTable_isHall left right)
open RoughPy.Lite (keyAt pairAt Rep HallSet Key)

variable {b : Lie.Basis} {hs : HallSet}

theorem TreeAt.small (hb : IsHallTable b) (hw : b.width < 2 ^ 16) {k : ℕ} {t : Tree} (h : TreeAt b k t) :
    t.Small := fun l hl => by have := h.letters hb l hl; omega

theorem keyAt_leaf (hb : IsHallTable b) (hw : b.width < 2 ^ 16) {l : ℕ} (h1 : 1 ≤ l) (h2 : l ≤ b.width) :
    (keyAt b l).deg = 1 ∧ toLetter (keyAt b l) = l := by
  rw [Lite.keyAt_letter hb h1 h2]
  refine ⟨rfl, ?_⟩
  unfold toLetter
  dsimp only
  rw [Nat.sub_add_cancel h1]
  exact Nat.mod_eq_of_lt (by omega)

/-- A part of a key: its degree is one if it is a letter, and then it is that letter. -/
theorem part_leaf (hb : IsHallTable b) (hw : b.width < 2 ^ 16) {k : ℕ} {t : Tree} (h : TreeAt b k t) :
    ((keyAt b k).deg = 1 ∧ t = .leaf k ∧ toLetter (keyAt b k) = k) ∨
    (2 ≤ (keyAt b k).deg ∧ ∃ c d, t = .node c d) := by
  cases h with
  | leaf h1 h2 => exact Or.inl ⟨(keyAt_leaf hb hw h1 h2).1, rfl, (keyAt_leaf hb hw h1 h2).2⟩
  | node h1 _ _ _ => exact Or.inr ⟨h1, _, _, rfl⟩

theorem parseKey_eq (hb : IsHallTable b) (hr : Rep b hs) (hw : b.width < 2 ^ 16) {k : ℕ} {t : Tree}
    (h : TreeAt b k t) : ∀ {f : ℕ}, t.degree ≤ f → parseKey hs f k = some (enc t) := by
  have hpos : ∀ {k : ℕ} {t : Tree}, TreeAt b k t → 0 < t.degree := by
    intro k t h
    rw [h.degree hb]
    exact hb.deg_pos (h.bounds hb).2 (h.bounds hb).1
  induction h with
  | @leaf l h1 h2 =>
    intro f hf
    have hp := hpos (TreeAt.leaf h1 h2)
    obtain ⟨f, rfl⟩ : ∃ g, f = g + 1 := ⟨f - 1, by omega⟩
    have hbd := (TreeAt.leaf h1 h2).bounds hb
    unfold parseKey
    rw [toImpl_keyAt hb hr hbd.1 hbd.2]
    simp only [Option.bind_eq_bind, Option.bind_some]
    rw [if_pos (keyAt_leaf hb hw h1 h2).1, (keyAt_leaf hb hw h1 h2).2]
    rfl
  | @node k i j s t h1 h2 h3 h4 ih1 ih2 =>
    intro f hf
    have hp1 := hpos h3
    have hp2 := hpos h4
    have hf' : s.degree + t.degree ≤ f := hf
    obtain ⟨f, rfl⟩ : ∃ g, f = g + 1 := ⟨f - 1, by omega⟩
    have hbd := (TreeAt.node h1 h2 h3 h4).bounds hb
    have hbi := h3.bounds hb
    have hbj := h4.bounds hb
    have e1 := ih1 (f := f) (by omega)
    have e2 := ih2 (f := f) (by omega)
    unfold parseKey
    rw [toImpl_keyAt hb hr hbd.1 hbd.2]
    simp only [Option.bind_eq_bind, Option.bind_some]
    rw [if_neg (show ¬ (keyAt b k).deg = 1 from by show ¬ b.deg k = 1; omega),
      parents_eq hb hr hbd.1 hbi.1 hbj.1 h2]
    simp only [Option.bind_some]
    rw [toImpl_keyAt hb hr hbi.1 hbi.2, toImpl_keyAt hb hr hbj.1 hbj.2]
    simp only [Option.bind_some]
    rw [enc_node]
    rcases part_leaf hb hw h3 with ⟨a1, a2, a3⟩ | ⟨a1, c, d, a2⟩ <;>
      rcases part_leaf hb hw h4 with ⟨b1, b2, b3⟩ | ⟨b1, c', d', b2⟩
    · rw [if_pos ⟨a1, b1⟩, a3, b3, a2, b2]
      rfl
    · rw [if_neg (by omega), if_pos a1, a3, e2, a2, b2]
      rfl
    · rw [if_neg (by omega), if_neg (by omega), if_pos b1, b3, e1, a2, b2]
      simp only [Option.bind_some, head, block, List.append_nil]
    · rw [if_neg (by omega), if_neg (by omega), if_neg (by omega), e1, e2, a2, b2]
      simp only [Option.bind_some, head, block]

/-- Numbers that are not numbers of keys: the recursion does not end. -/
theorem parseKey_out (hb : IsHallTable b) (hr : Rep b hs) (hlen : b.data.length ≤ 2 ^ 64) : ∀ (f k : ℕ),
    (k = 0 ∨ b.data.length ≤ k) → parseKey hs f k = none
  | 0, _, _ => rfl
  | f + 1, k, h => by
    unfold parseKey
    rw [toImpl_out hb hr hlen h]
    simp only [Option.bind_eq_bind, Option.bind_some]
    rw [if_neg (by omega), parents_out hb hr hlen h]
    simp only [Option.bind_some]
    rw [toImpl_out hb hr hlen (Or.inr le_rfl)]
    simp only [Option.bind_some]
    rw [if_neg (by omega), if_neg (by omega), if_neg (by omega),
      parseKey_out hb hr hlen f b.data.length (Or.inr le_rfl)]
    rfl

theorem keyOf_eq (hb : IsHallTable b) (hr : Rep b hs) (hw : b.width < 2 ^ 16) {k : ℕ} {t : Tree}
    (h : TreeAt b k t) : keyOf hs k = some (enc t) := by
  refine parseKey_eq hb hr hw h ?_
  rw [h.degree hb, Lite.sizes_length hr]
  have := (hb.hasDegree_deg (h.bounds hb).2).1
  omega

/-! ## Texts -/

/-- The texts in a cache are those of brackets of the table. -/
def CacheOk (b : Lie.Basis) (c : Cache) : Prop :=
  ∀ k s, c k = some s → ∃ i t, k = keyAt b i ∧ TreeAt b i t ∧ s = t.text

theorem keyText_eq (hb : IsHallTable b) (hr : Rep b hs) (lf : Bool) {k : ℕ} {t : Tree} (h : TreeAt b k t) :
    ∀ {f : ℕ} {c : Cache}, t.degree ≤ f → CacheOk b c →
    ∃ c', keyText lf hs f c (keyAt b k) = some (t.text, c') ∧ CacheOk b c' := by
  have hpos : ∀ {k : ℕ} {t : Tree}, TreeAt b k t → 0 < t.degree := by
    intro k t h
    rw [h.degree hb]
    exact hb.deg_pos (h.bounds hb).2 (h.bounds hb).1
  have hup : ∀ {k : ℕ} {t : Tree} {c : Cache}, TreeAt b k t → CacheOk b c →
      CacheOk b (Function.update c (keyAt b k) (some t.text)) := by
    intro k t c h hc q s hq
    by_cases e : q = keyAt b k
    · subst e
      rw [Function.update_self, Option.some.injEq] at hq
      exact ⟨k, t, rfl, h, hq.symm⟩
    · rw [Function.update_of_ne e] at hq
      exact hc q s hq
  have hhit : ∀ {k : ℕ} {t : Tree} {c : Cache} {s : List Char}, TreeAt b k t → CacheOk b c →
      c (keyAt b k) = some s → s = t.text := by
    intro k t c s h hc hs
    obtain ⟨i, u, h1, h2, h3⟩ := hc _ _ hs
    have := Lite.keyAt_inj hb (h.bounds hb).2 (h2.bounds hb).2 h1
    subst this
    rw [h3, h.unique hb h2]
  induction h with
  | @leaf l h1 h2 =>
    intro f c hf hc
    have hp := hpos (TreeAt.leaf h1 h2)
    obtain ⟨f, rfl⟩ : ∃ g, f = g + 1 := ⟨f - 1, by omega⟩
    have ht := TreeAt.leaf h1 h2
    unfold keyText
    cases hck : c (keyAt b l) with
    | some s =>
      rw [hhit ht hc hck]
      exact ⟨c, rfl, hc⟩
    | none =>
      rw [Lite.keyAt_letter hb h1 h2]
      dsimp only
      rw [if_pos rfl, Nat.sub_add_cancel h1, ← Lite.keyAt_letter hb h1 h2]
      exact ⟨_, rfl, hup ht hc⟩
  | @node k i j s t h1 h2 h3 h4 ih1 ih2 =>
    intro f c hf hc
    have hp1 := hpos h3
    have hp2 := hpos h4
    have hf' : s.degree + t.degree ≤ f := hf
    obtain ⟨f, rfl⟩ : ∃ g, f = g + 1 := ⟨f - 1, by omega⟩
    have ht := TreeAt.node h1 h2 h3 h4
    unfold keyText
    cases hck : c (keyAt b k) with
    | some s' =>
      rw [hhit ht hc hck]
      exact ⟨c, rfl, hc⟩
    | none =>
      dsimp only
      rw [if_neg (show ¬ (keyAt b k).deg = 1 from by show ¬ b.deg k = 1; omega), hs_parents hb hr h2]
      simp only [Option.bind_eq_bind, Option.bind_some, pairAt]
      cases lf with
      | true =>
        obtain ⟨c1, g1, g2⟩ := ih1 (f := f) (c := c) (by omega) hc
        obtain ⟨c2, g3, g4⟩ := ih2 (f := f) (c := c1) (by omega) g2
        rw [if_pos rfl, g1]
        simp only [Option.bind_some]
        rw [g3]
        simp only [Option.bind_some]
        rw [← text_node]
        exact ⟨_, rfl, hup ht g4⟩
      | false =>
        obtain ⟨c1, g1, g2⟩ := ih2 (f := f) (c := c) (by omega) hc
        obtain ⟨c2, g3, g4⟩ := ih1 (f := f) (c := c1) (by omega) g2
        rw [if_neg (by decide), g1]
        simp only [Option.bind_some]
        rw [g3]
        simp only [Option.bind_some]
        rw [← text_node]
        exact ⟨_, rfl, hup ht g4⟩

theorem keyToString_eq (hb : IsHallTable b) (hr : Rep b hs) (lf : Bool) {k : ℕ} {t : Tree} (h : TreeAt b k t)
    {c : Cache} (hc : CacheOk b c) :
    ∃ c', keyToString lf hs c k = some (t.text, c') ∧ CacheOk b c' := by
  have hbd := h.bounds hb
  unfold keyToString
  rw [toImpl_keyAt hb hr hbd.1 hbd.2]
  refine keyText_eq hb hr lf h ?_ hc
  rw [h.degree hb, Lite.sizes_length hr]
  have := (hb.hasDegree_deg hbd.2).1
  omega

theorem textsOf_eq (hb : IsHallTable b) (hr : Rep b hs) (lf : Bool) : ∀ (ks : List ℕ),
    (∀ k ∈ ks, 0 < k ∧ k < b.data.length) →
    ∃ ts c, textsOf lf hs ks = some (ts.map Tree.text, c) ∧ List.Forall₂ (TreeAt b) ks ts ∧ CacheOk b c
  | [], _ => ⟨[], _, rfl, .nil, fun k s h => by cases h⟩
  | k :: ks, h => by
    obtain ⟨ts, c, h1, h2, h3⟩ := textsOf_eq hb hr lf ks fun k hk => h k (List.mem_cons_of_mem _ hk)
    have hk := h k List.mem_cons_self
    obtain ⟨t, ht⟩ := TreeAt.exists hb k hk.1 hk.2
    obtain ⟨c', g1, g2⟩ := keyToString_eq hb hr lf ht h3
    refine ⟨t :: ts, c', ?_, .cons ht h2, g2⟩
    unfold textsOf
    rw [h1]
    simp only [Option.bind_eq_bind, Option.bind_some]
    rw [g1]
    rfl

/-! ## Iterating -/

theorem take_eq {stop : ℕ} (hs : stop < 2 ^ 64 - 1) : ∀ (n start : ℕ), start ≤ stop + 1 → stop < start + n →
    Iter.take ⟨start, stop⟩ n = List.range' start (stop + 1 - start)
  | 0, start, h1, h2 => by
    rw [show stop + 1 - start = 0 by omega]
    rfl
  | n + 1, start, h1, h2 => by
    unfold Iter.take Iter.next
    by_cases h : stop < start
    · rw [if_pos h, show stop + 1 - start = 0 by omega]
      rfl
    · rw [if_neg h]
      dsimp only
      rw [Nat.mod_eq_of_lt (by omega), take_eq hs n (start + 1) (by omega) (by omega),
        show stop + 1 - start = (stop + 1 - (start + 1)) + 1 by omega, List.range'_succ]

/-! ## Numbers of keys -/

/-- All distances stay inside the array. -/
def Inside (d : List ℕ) : Prop :=
  ∀ i x, d[i]? = some x → isOffset x = true → 0 < offset x ∧ i + offset x < d.length

theorem recurse_some (hb : IsHallTable b) (hr : Rep b hs) (hlen : b.data.length ≤ 2 ^ 64) {d : List ℕ}
    (hd : Inside d) : ∀ (f i : ℕ), i < d.length → d.length ≤ f + i → ∃ o, recurse hs d f i = some o
  | 0, i, h1, h2 => by omega
  | f + 1, i, h1, h2 => by
    unfold recurse
    rw [List.getElem?_eq_getElem h1]
    simp only [Option.bind_eq_bind, Option.bind_some]
    by_cases hx : isOffset d[i] = true
    · rw [if_pos hx]
      obtain ⟨g1, g2⟩ := hd i _ (List.getElem?_eq_getElem h1) hx
      obtain ⟨l, hl⟩ := recurse_some hb hr hlen hd f (i + offset d[i]) g2 (by omega)
      obtain ⟨r, hr'⟩ := recurse_some hb hr hlen hd f (i + 1) (by omega) (by omega)
      rw [hl, hr']
      simp only [Option.bind_some]
      cases l with
      | none => exact ⟨none, rfl⟩
      | some l =>
        cases r with
        | none => exact ⟨none, rfl⟩
        | some r =>
          obtain ⟨o, ho, -⟩ := child_eq hb hr hlen l r
          exact ⟨o, ho⟩
    · rw [if_neg hx]
      exact ⟨_, rfl⟩

theorem inside_enc (t : Tree) : Inside (enc t) := by
  have key : ∀ t : Tree, Inside (enc t) ∧ Inside (block t) := by
    intro t
    induction t with
    | leaf l =>
      constructor
      · intro i x h hx
        have hi : i < 1 := (List.getElem?_eq_some_iff.1 h).1
        have : i = 0 := by omega
        subst this
        have : ofLetter l = x := by
          have h' : some (ofLetter l) = some x := h
          exact Option.some.inj h'
        rw [← this, isOffset_letter] at hx
        cases hx
      · intro i x h; cases h
    | node a b iha ihb =>
      have h : Inside (enc (.node a b)) := by
        intro i x h hx
        have hlen := enc_length_node a b
        rw [enc_node] at h
        rcases i with _ | _ | i
        · have : head 2 a = x := by
            have h' : some (head 2 a) = some x := h
            exact Option.some.inj h'
          subst this
          cases a with
          | leaf l => rw [show head 2 (.leaf l) = ofLetter l from rfl, isOffset_letter] at hx; cases hx
          | node c d =>
            have := enc_length_node c d
            rw [show head 2 (.node c d) = ofOffset 2 from rfl, offset_ofOffset, hlen]
            simp only [block] at *
            omega
        · have : head (1 + (block a).length) b = x := by
            have h' : some (head (1 + (block a).length) b) = some x := h
            exact Option.some.inj h'
          subst this
          cases b with
          | leaf l => rw [show head (1 + (block a).length) (.leaf l) = ofLetter l from rfl, isOffset_letter] at hx; cases hx
          | node c d =>
            have := enc_length_node c d
            rw [show head (1 + (block a).length) (.node c d) = ofOffset (1 + (block a).length) from rfl,
              offset_ofOffset, hlen]
            simp only [block] at *
            omega
        · rw [List.getElem?_cons_succ, List.getElem?_cons_succ] at h
          rcases Nat.lt_or_ge i (block a).length with hi | hi
          · rw [List.getElem?_append_left hi] at h
            have := iha.2 i x h hx
            rw [hlen]
            omega
          · rw [List.getElem?_append_right hi] at h
            have := ihb.2 _ x h hx
            rw [hlen]
            omega
      exact ⟨h, h⟩
  exact (key t).1

/-- The number that is computed for a bracket of degree two or more is not its number. -/
theorem recurse_ne (hb : IsHallTable b) (hr : Rep b hs) (hlen : b.data.length ≤ 2 ^ 64) {t : Tree} :
    ∀ {k : ℕ} {a c : Tree} {d pre post : List ℕ} {f x : ℕ}, t = .node a c → TreeAt b k t →
    d = pre ++ enc t ++ post → recurse hs d f pre.length = some (some x) → x ≠ k := by
  induction t with
  | leaf l => intro k a c d pre post f x h; cases h
  | node a c iha _ =>
    intro k a' c' d pre post f x he ht hd hx
    injection he with he1 he2
    subst he1 he2
    cases f with
    | zero => cases hx
    | succ f =>
      have h0 : d[pre.length]? = some (head 2 a) := by
        rw [hd, enc_node, List.append_assoc, List.getElem?_append_right (Nat.le_refl _), Nat.sub_self]
        rfl
      unfold recurse at hx
      rw [h0] at hx
      simp only [Option.bind_eq_bind, Option.bind_some] at hx
      cases ht with
      | @node _ i j _ _ h1 h2 h3 h4 =>
        cases a with
        | leaf l =>
          rw [show head 2 (.leaf l) = ofLetter l from rfl, isOffset_letter, if_neg (by decide),
            offset_ofLetter, Option.some.injEq, Option.some.injEq] at hx
          subst hx
          cases h3 with
          | leaf g1 g2 =>
            rintro rfl
            rw [hb.deg_eq (hb.letter_iff.2 ⟨g1, g2⟩)] at h1
            omega
        | node a1 a2 =>
          rw [show head 2 (.node a1 a2) = ofOffset 2 from rfl, isOffset_offset, if_pos rfl,
            offset_ofOffset] at hx
          have hlen2 : (pre ++ [head 2 (.node a1 a2), head (1 + (block (.node a1 a2)).length) c]).length
              = pre.length + 2 := by simp
          have hrec : ∀ l, recurse hs d f (pre.length + 2) = some (some l) → l ≠ i := by
            intro l hl
            rw [← hlen2] at hl
            refine iha (post := block c ++ post) rfl h3 ?_ hl
            rw [hd, enc_node]
            simp only [block, List.append_assoc, List.cons_append, List.nil_append]
          cases hL : recurse hs d f (pre.length + 2) with
          | none => rw [hL] at hx; cases hx
          | some l =>
            cases hR : recurse hs d f (pre.length + 1) with
            | none => rw [hL, hR] at hx; cases hx
            | some r =>
              rw [hL, hR] at hx
              simp only [Option.bind_some] at hx
              cases l with
              | none => cases hx
              | some l =>
                cases r with
                | none => cases hx
                | some r =>
                  dsimp only at hx
                  rintro rfl
                  obtain ⟨o, ho, hk⟩ := child_eq hb hr hlen l r
                  rw [ho, Option.some.injEq] at hx
                  obtain ⟨i', j', e1, -, e2, -⟩ := hk x hx
                  rw [h2, Option.some.injEq, Prod.mk.injEq] at e1
                  obtain ⟨rfl, rfl⟩ := e1
                  have hbi := h3.bounds hb
                  exact hrec l hL (toImpl_eq hb hr hlen hbi.1 hbi.2 e2)

theorem toKey_ne (hb : IsHallTable b) (hr : Rep b hs) (hlen : b.data.length ≤ 2 ^ 64) {k : ℕ} {a c : Tree}
    (ht : TreeAt b k (.node a c)) : ∃ x, toKey hs (enc (.node a c)) = some x ∧ x ≠ k := by
  have hl := enc_length_node a c
  obtain ⟨o, ho⟩ := recurse_some hb hr hlen (inside_enc (.node a c)) (enc (.node a c)).length 0 (by omega)
    (by omega)
  have hne := @recurse_ne b hs hb hr hlen (.node a c) k a c (enc (.node a c)) [] []
    (enc (.node a c)).length
  have htk : toKey hs (enc (.node a c)) = some (o.getD 0) := by
    obtain ⟨x, y, l, h⟩ := enc_two a c
    rw [h] at ho ⊢
    unfold toKey
    dsimp only
    rw [ho]
    rfl
  refine ⟨_, htk, ?_⟩
  cases o with
  | none =>
    have := (ht.bounds hb).1
    show (0 : ℕ) ≠ k
    omega
  | some x => exact hne (x := x) rfl ht (by simp) ho

/-! ## Comparing keys -/

theorem branchesEqual_eq {d e : List ℕ} {t : Tree} : ∀ {u : Tree} {f i j : ℕ}, height t < f →
    t.Small → u.Small → Points d i t → Points e j u →
    branchesEqual d e f i j = some (decide (t.spine = u.spine)) := by
  induction t with
  | leaf l =>
    intro u f i j hf s1 s2 h1 h2
    obtain ⟨f, rfl⟩ : ∃ g, f = g + 1 := ⟨f - 1, by omega⟩
    have h1' : d[i]? = some (ofLetter l) := h1
    unfold branchesEqual
    rw [h1']
    simp only [Option.bind_eq_bind, Option.bind_some]
    cases u with
    | leaf m =>
      have h2' : e[j]? = some (ofLetter m) := h2
      rw [h2']
      simp only [Option.bind_some]
      rw [if_pos ⟨isOffset_letter l, isOffset_letter m⟩, letter_ofLetter (small_leaf.1 s1),
        letter_ofLetter (small_leaf.1 s2)]
      simp [Tree.spine]
    | node c c' =>
      obtain ⟨o, _, g1, _, _⟩ := h2
      rw [g1]
      simp only [Option.bind_some]
      rw [if_neg (fun h => by rw [isOffset_offset] at h; exact absurd h.2 (by decide)),
        if_neg (fun h => by rw [isOffset_letter] at h; exact absurd h.1 (by decide))]
      congr 1
  | node a b iha _ =>
    intro u f i j hf s1 s2 h1 h2
    obtain ⟨f, rfl⟩ : ∃ g, f = g + 1 := ⟨f - 1, by omega⟩
    obtain ⟨o, _, g1, g2, _⟩ := h1
    unfold height at hf
    unfold branchesEqual
    rw [g1]
    simp only [Option.bind_eq_bind, Option.bind_some]
    cases u with
    | leaf m =>
      have h2' : e[j]? = some (ofLetter m) := h2
      rw [h2']
      simp only [Option.bind_some]
      rw [if_neg (fun h => by rw [isOffset_offset] at h; exact absurd h.1 (by decide)),
        if_neg (fun h => by rw [isOffset_letter] at h; exact absurd h.2 (by decide))]
      congr 1
    | node c c' =>
      obtain ⟨o', _, g1', g2', _⟩ := h2
      rw [g1']
      simp only [Option.bind_some]
      rw [if_neg (fun h => by rw [isOffset_offset] at h; exact absurd h.1 (by decide)),
        if_pos ⟨isOffset_offset o, isOffset_offset o'⟩, offset_ofOffset, offset_ofOffset,
        iha (by omega) (small_node.1 s1).1 (small_node.1 s2).1 g2 g2']
      congr 1
      rw [decide_eq_decide]
      show _ ↔ (a.spine.1 + 1, a.spine.2) = (c.spine.1 + 1, c.spine.2)
      rw [Prod.mk.injEq, Prod.ext_iff]
      constructor
      · rintro ⟨h1, h2⟩; exact ⟨by omega, h2⟩
      · rintro ⟨h1, h2⟩; exact ⟨by omega, h2⟩

theorem equals_eq {a b c d : Tree} (h : (Tree.node a b).Small) (h' : (Tree.node c d).Small) :
    equals (enc (.node a b)) (enc (.node c d)) = some (decide (a.spine = c.spine ∧ b.spine = d.spine)) := by
  have hh := height_lt (.node a b)
  unfold height at hh
  obtain ⟨h1, h2⟩ := points_enc a b
  obtain ⟨h3, h4⟩ := points_enc c d
  unfold equals
  rw [branchesEqual_eq (by omega) (small_node.1 h).1 (small_node.1 h').1 h1 h3]
  simp only [Option.bind_eq_bind, Option.bind_some]
  by_cases e : a.spine = c.spine
  · rw [decide_eq_true e, if_pos rfl, branchesEqual_eq (by omega) (small_node.1 h).2 (small_node.1 h').2 h2 h4]
    congr 1
    rw [decide_eq_decide]
    exact ⟨fun g => ⟨e, g⟩, fun g => g.2⟩
  · rw [decide_eq_false e, if_neg (by decide)]
    congr 1
    exact (decide_eq_false fun g => e g.1).symm

/-! ## Parts of keys -/

theorem walk_flat {d : List ℕ} {t : Tree} (ht : t.Flat) {i f : ℕ} (hf : 2 ≤ f) (hp : Points d i t) :
    ∃ x, d[i]? = some x ∧ (if isOffset x then (walkTree d f (i + offset x) ⟨[], 0, 0⟩).map Trim.tree
      else some [x]) = some (enc t) := by
  obtain ⟨f, rfl⟩ : ∃ g, f = g + 2 := ⟨f - 2, by omega⟩
  rcases ht with ⟨l, rfl⟩ | ⟨l, m, rfl⟩ | ⟨l, m, n, rfl⟩
  · refine ⟨_, hp, ?_⟩
    rw [isOffset_letter, if_neg (by decide)]
    rfl
  · obtain ⟨o, -, h1, h2, h3⟩ := hp
    have h2' : d[i + o]? = some (ofLetter l) := h2
    have h3' : d[i + o + 1]? = some (ofLetter m) := h3
    refine ⟨_, h1, ?_⟩
    rw [isOffset_offset, if_pos rfl, offset_ofOffset]
    unfold walkTree
    rw [h2', h3']
    simp only [Option.bind_eq_bind, Option.bind_some, isOffset_letter, Bool.false_eq_true, if_false,
      Option.map_some, Trim.visit]
    rfl
  · obtain ⟨o, -, h1, h2, o', -, h3, h4, h5⟩ := hp
    have h2' : d[i + o]? = some (ofLetter l) := h2
    have h4' : d[i + o + 1 + o']? = some (ofLetter m) := h4
    have h5' : d[i + o + 1 + o' + 1]? = some (ofLetter n) := h5
    refine ⟨_, h1, ?_⟩
    rw [isOffset_offset, if_pos rfl, offset_ofOffset]
    unfold walkTree
    rw [h2', h3]
    simp only [Option.bind_eq_bind, Option.bind_some, isOffset_letter, isOffset_offset, Bool.false_eq_true,
      if_false, if_true, offset_ofOffset]
    unfold walkTree
    rw [h4', h5']
    simp only [Option.bind_eq_bind, Option.bind_some, isOffset_letter, isOffset_offset, Bool.false_eq_true,
      if_false, if_true, Option.map_some, Trim.visit]
    rfl

theorem trimBranch_flat {a b : Tree} {start : ℕ} {t : Tree} (ht : t.Flat)
    (hs : (start = 0 ∧ t = a) ∨ (start = 1 ∧ t = b)) :
    trimBranch (enc (.node a b)) start = some (enc t) := by
  have hp : Points (enc (.node a b)) start t := by
    rcases hs with ⟨rfl, rfl⟩ | ⟨rfl, rfl⟩
    · exact (points_enc _ _).1
    · exact (points_enc _ _).2
  have hl := enc_length_node a b
  obtain ⟨x, h1, h2⟩ := walk_flat ht (f := (enc (.node a b)).length) (by omega) hp
  have key : trimBranch (enc (.node a b)) start = (enc (.node a b))[start]?.bind fun x =>
      if (enc (.node a b)).length = 2 then some [x]
      else if isOffset x then (walkTree (enc (.node a b)) (enc (.node a b)).length (start + offset x)
        ⟨[], 0, 0⟩).map Trim.tree
      else some [x] := by
    obtain ⟨x, y, l, h⟩ := enc_two a b
    rw [h]
    rfl
  rw [key, h1]
  simp only [Option.bind_some]
  by_cases h22 : (enc (.node a b)).length = 2
  · rw [if_pos h22]
    have hleaf : ∃ l, t = .leaf l := by
      have ha : (block a).length = 0 := by omega
      have hb : (block b).length = 0 := by omega
      have : (block t).length = 0 := by
        rcases hs with ⟨-, rfl⟩ | ⟨-, rfl⟩ <;> assumption
      cases t with
      | leaf l => exact ⟨l, rfl⟩
      | node c d =>
        have := enc_length_node c d
        simp only [block] at *
        omega
    obtain ⟨l, rfl⟩ := hleaf
    have hp' : (enc (.node a b))[start]? = some (ofLetter l) := hp
    rw [h1, Option.some.injEq] at hp'
    rw [hp']
    rfl
  · rw [if_neg h22]
    exact h2

end RoughPy.Keys
