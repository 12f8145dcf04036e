import Verif.Keys.Spec

/-! # Brackets and arrays of words -/

namespace RoughPy.Keys

open Tree

/-- The array of a bracket. -/
def enc : Tree → List ℕ
  | .leaf l => [ofLetter l]
  | .node a b => joinTrees (enc a) (enc b)

/-- The words a part adds after the first two. -/
def block : Tree → List ℕ
  | .leaf _ => []
  | .node a b => enc (.node a b)

/-- The word for a part. -/
def head (o : ℕ) : Tree → ℕ
  | .leaf l => ofLetter l
  | .node _ _ => ofOffset o

theorem joinTrees_two (x y : ℕ) (l : List ℕ) (b : List ℕ) : joinTrees (x :: y :: l) b =
    ofOffset 2 :: (match b with | [y] => y | _ => ofOffset (1 + (x :: y :: l).length)) ::
      ((x :: y :: l) ++ (match b with | [_] => [] | _ => b)) := by
  unfold joinTrees
  rcases b with _ | ⟨z, _ | ⟨u, b⟩⟩ <;> rfl

theorem enc_two (a b : Tree) : ∃ x y l, enc (.node a b) = x :: y :: l := ⟨_, _, _, rfl⟩

theorem enc_node (a b : Tree) : enc (.node a b) =
    head 2 a :: head (1 + (block a).length) b :: (block a ++ block b) := by
  cases a with
  | leaf l =>
    cases b with
    | leaf m => rfl
    | node c d =>
      obtain ⟨x, y, l', h⟩ := enc_two c d
      show joinTrees [ofLetter l] (enc (.node c d)) = _
      simp only [block, head]
      rw [h]; rfl
  | node a1 a2 =>
    obtain ⟨x, y, l', h⟩ := enc_two a1 a2
    show joinTrees (enc (.node a1 a2)) (enc b) = _
    cases b with
    | leaf m => simp only [block, head]; rw [h]; rfl
    | node c d =>
      obtain ⟨x', y', l'', h'⟩ := enc_two c d
      simp only [block, head]; rw [h, h']; rfl

theorem enc_length_node (a b : Tree) :
    (enc (.node a b)).length = 2 + (block a).length + (block b).length := by
  rw [enc_node]
  simp only [List.length_cons, List.length_append]
  omega

theorem isOffset_letter (l : ℕ) : isOffset (ofLetter l) = false := by
  unfold isOffset ofLetter
  exact decide_eq_false (by omega)

theorem isOffset_offset (o : ℕ) : isOffset (ofOffset o) = true := by
  unfold isOffset ofOffset
  exact decide_eq_true (by omega)

theorem offset_ofOffset (o : ℕ) : offset (ofOffset o) = o := by
  unfold offset ofOffset; omega

theorem offset_ofLetter (l : ℕ) : offset (ofLetter l) = l := by
  unfold offset ofLetter; omega

theorem letter_ofLetter {l : ℕ} (h : l < 2 ^ 16) : letter (ofLetter l) = l := by
  unfold letter ofLetter
  rw [show (1 + 2 * l) / 2 = l by omega]
  exact Nat.mod_eq_of_lt h

/-- The word at a position stands for a bracket. -/
def Points (d : List ℕ) : ℕ → Tree → Prop
  | i, .leaf l => d[i]? = some (ofLetter l)
  | i, .node a b => ∃ o, 0 < o ∧ d[i]? = some (ofOffset o) ∧ Points d (i + o) a ∧
      Points d (i + o + 1) b

theorem points_node (t : Tree) : ∀ (a b : Tree), t = .node a b → ∀ (d pre post : List ℕ),
    d = pre ++ enc t ++ post → Points d pre.length a ∧ Points d (pre.length + 1) b := by
  induction t with
  | leaf l => intro a b h; cases h
  | node a b iha ihb =>
    intro a' b' h d pre post hd
    injection h with h1 h2
    subst h1 h2
    have h0 : d[pre.length]? = some (head 2 a) := by
      rw [hd, enc_node, List.append_assoc, List.getElem?_append_right (Nat.le_refl _), Nat.sub_self]
      rfl
    have h1 : d[pre.length + 1]? = some (head (1 + (block a).length) b) := by
      rw [hd, enc_node, List.append_assoc, List.getElem?_append_right (by omega),
        Nat.add_sub_cancel_left]
      rfl
    constructor
    · cases a with
      | leaf l => exact h0
      | node a1 a2 =>
        have := iha a1 a2 rfl d (pre ++ [head 2 (.node a1 a2), head (1 + (block (.node a1 a2)).length) b])
          (block b ++ post) (by
            rw [hd, enc_node]
            simp only [block, List.append_assoc, List.cons_append, List.nil_append])
        simp only [List.length_append, List.length_cons, List.length_nil, Nat.zero_add] at this
        exact ⟨2, by omega, h0, this.1, this.2⟩
    · cases b with
      | leaf l => exact h1
      | node b1 b2 =>
        have := ihb b1 b2 rfl d (pre ++ [head 2 a, head (1 + (block a).length) (.node b1 b2)] ++ block a)
          post (by
            rw [hd, enc_node]
            simp only [block, List.append_assoc, List.cons_append, List.nil_append])
        simp only [List.length_append, List.length_cons, List.length_nil, Nat.zero_add] at this
        refine ⟨1 + (block a).length, by omega, h1, ?_, ?_⟩
        · rw [show pre.length + 1 + (1 + (block a).length) = pre.length + 2 + (block a).length by omega]
          exact this.1
        · rw [show pre.length + 1 + (1 + (block a).length) + 1
            = pre.length + 2 + (block a).length + 1 by omega]
          exact this.2

theorem points_enc (a b : Tree) : Points (enc (.node a b)) 0 a ∧ Points (enc (.node a b)) 1 b := by
  have := points_node (.node a b) a b rfl (enc (.node a b)) [] [] (by simp)
  exact this

/-- Nesting depth. -/
def height : Tree → ℕ
  | .leaf _ => 0
  | .node a b => 1 + max (height a) (height b)

theorem height_lt (t : Tree) : height t < (enc t).length := by
  induction t with
  | leaf l => show 0 < 1; omega
  | node a b iha ihb =>
    have ha : height a ≤ (block a).length := by
      cases a with
      | leaf l => exact Nat.zero_le _
      | node _ _ => exact le_of_lt iha
    have hb : height b ≤ (block b).length := by
      cases b with
      | leaf l => exact Nat.zero_le _
      | node _ _ => exact le_of_lt ihb
    rw [enc_length_node]
    unfold height
    omega

theorem small_node {a b : Tree} : (Tree.node a b).Small ↔ a.Small ∧ b.Small := by
  unfold Small
  rw [show (Tree.node a b).letters = a.letters ++ b.letters from rfl]
  constructor
  · intro h
    exact ⟨fun l hl => h l (List.mem_append_left _ hl), fun l hl => h l (List.mem_append_right _ hl)⟩
  · rintro ⟨h1, h2⟩ l hl
    rcases List.mem_append.1 hl with h | h
    · exact h1 l h
    · exact h2 l h

theorem small_leaf {l : ℕ} : (Tree.leaf l).Small ↔ l < 2 ^ 16 := by
  unfold Small letters
  simp

/-! ## Text -/

theorem text_node (a b : Tree) : (Tree.node a b).text = bracket a.text b.text := by
  unfold bracket
  rw [Tree.text]
  simp only [List.cons_append, List.nil_append, List.append_assoc]

theorem walkSingle_points {d : List ℕ} {t : Tree} (ht : t.Small) : ∀ {f i : ℕ}, height t < f →
    Points d i t → walkSingle d f i = some t.text := by
  induction t with
  | leaf l =>
    intro f i hf hp
    obtain ⟨f, rfl⟩ : ∃ g, f = g + 1 := ⟨f - 1, by omega⟩
    unfold walkSingle
    have hp' : d[i]? = some (ofLetter l) := hp
    rw [hp']
    simp only [Option.bind_eq_bind, Option.bind_some, isOffset_letter, Bool.false_eq_true, if_false]
    rw [letter_ofLetter (small_leaf.1 ht)]
    rfl
  | node a b iha ihb =>
    intro f i hf hp
    obtain ⟨f, rfl⟩ : ∃ g, f = g + 1 := ⟨f - 1, by omega⟩
    obtain ⟨o, -, h1, h2, h3⟩ := hp
    unfold height at hf
    unfold walkSingle
    rw [h1]
    simp only [Option.bind_eq_bind, Option.bind_some, isOffset_offset, if_true, offset_ofOffset]
    rw [iha (small_node.1 ht).1 (by omega) h2, ihb (small_node.1 ht).2 (by omega) h3, text_node]
    rfl

theorem toStr_enc {t : Tree} (ht : t.Small) : toStr (enc t) = some t.text := by
  cases t with
  | leaf l =>
    show some (digits (letter (ofLetter l))) = _
    rw [letter_ofLetter (small_leaf.1 ht)]
    rfl
  | node a b =>
    have hl := height_lt (.node a b)
    unfold height at hl
    obtain ⟨h1, h2⟩ := points_enc a b
    have e1 := walkSingle_points (small_node.1 ht).1 (f := (enc (.node a b)).length) (by omega) h1
    have e2 := walkSingle_points (small_node.1 ht).2 (f := (enc (.node a b)).length) (by omega) h2
    rw [text_node]
    obtain ⟨x, y, l, h⟩ := enc_two a b
    rw [h] at e1 e2 ⊢
    unfold toStr
    simp only [e1, e2, Option.bind_eq_bind, Option.bind_some]

/-! ### Different brackets have different texts -/

/-- What may follow a bracket. -/
def Stop (r : List Char) : Prop := ∀ c r', r = c :: r' → c.isDigit = false

theorem digits_split : ∀ {a b r s : List Char}, (∀ c ∈ a, c.isDigit = true) → (∀ c ∈ b, c.isDigit = true) →
    Stop r → Stop s → a ++ r = b ++ s → a = b ∧ r = s
  | [], [], r, s, _, _, _, _, h => ⟨rfl, h⟩
  | [], y :: b, r, s, _, hb, hr, _, h => by
    have := hr y (b ++ s) h
    rw [hb y List.mem_cons_self] at this
    cases this
  | x :: a, [], r, s, ha, _, _, hs, h => by
    have := hs x (a ++ r) h.symm
    rw [ha x List.mem_cons_self] at this
    cases this
  | x :: a, y :: b, r, s, ha, hb, hr, hs, h => by
    simp only [List.cons_append, List.cons.injEq] at h
    obtain ⟨h1, h2⟩ := digits_split (fun c hc => ha c (List.mem_cons_of_mem _ hc))
      (fun c hc => hb c (List.mem_cons_of_mem _ hc)) hr hs h.2
    exact ⟨by rw [h.1, h1], h2⟩

theorem digits_digit (n : ℕ) : ∀ c ∈ Nat.toDigits 10 n, c.isDigit = true :=
  fun _ h => Nat.isDigit_of_mem_toDigits (by decide) (by decide) h

theorem digits_inj {a b : ℕ} (h : Nat.toDigits 10 a = Nat.toDigits 10 b) : a = b := by
  have h1 : Nat.ofDigitChars 10 (Nat.toDigits 10 a) 0 = a := Nat.ofDigitChars_ten_toDigits
  have h2 : Nat.ofDigitChars 10 (Nat.toDigits 10 b) 0 = b := Nat.ofDigitChars_ten_toDigits
  rw [← h1, h, h2]

theorem digits_not_bracket {n : ℕ} {r s : List Char} (h : Nat.toDigits 10 n ++ r = '[' :: s) : False := by
  have hd := digits_digit n
  cases hx : Nat.toDigits 10 n with
  | nil => exact Nat.toDigits_ne_nil hx
  | cons c l =>
    rw [hx] at h hd
    simp only [List.cons_append, List.cons.injEq] at h
    have := hd c List.mem_cons_self
    rw [h.1] at this
    exact absurd this (by decide)

theorem text_split {t t' : Tree} : ∀ {r s : List Char}, Stop r → Stop s → t.text ++ r = t'.text ++ s →
    t = t' ∧ r = s := by
  induction t generalizing t' with
  | leaf l =>
    intro r s hr hs h
    cases t' with
    | leaf m =>
      obtain ⟨h1, h2⟩ := digits_split (digits_digit l) (digits_digit m) hr hs h
      exact ⟨by rw [digits_inj h1], h2⟩
    | node c d =>
      exfalso
      rw [text_node] at h
      exact digits_not_bracket h
  | node a b iha ihb =>
    intro r s hr hs h
    cases t' with
    | leaf m =>
      exfalso
      rw [text_node] at h
      exact digits_not_bracket h.symm
    | node c d =>
      rw [text_node, text_node] at h
      unfold bracket at h
      simp only [List.cons_append, List.append_assoc, List.cons.injEq, true_and, List.nil_append] at h
      have s1 : ∀ u : List Char, Stop (',' :: u) := by
        intro u c r' hc
        injection hc with hc
        subst hc
        decide
      have s2 : ∀ u : List Char, Stop (']' :: u) := by
        intro u c r' hc
        injection hc with hc
        subst hc
        decide
      obtain ⟨h1, h2⟩ := iha (s1 _) (s1 _) h
      injection h2 with _ h2
      obtain ⟨h3, h4⟩ := ihb (s2 _) (s2 _) h2
      injection h4 with _ h4
      exact ⟨by rw [h1, h3], h4⟩

theorem text_inj {t t' : Tree} (h : t.text = t'.text) : t = t' := by
  have hs : Stop [] := fun c r' h => by cases h
  exact (text_split hs hs (by rw [h])).1

/-! ## Keys from objects -/

theorem castLetter_ok {n : ℤ} {l : ℕ} : castLetter n = .ok l ↔ n = l ∧ l < 2 ^ 16 := by
  unfold castLetter
  by_cases h : 0 ≤ n ∧ n < 2 ^ 16
  · rw [if_pos h]
    constructor
    · intro he
      injection he with he
      omega
    · rintro ⟨rfl, -⟩
      rfl
  · rw [if_neg h]
    constructor
    · intro he; cases he
    · rintro ⟨rfl, h2⟩
      exact absurd ⟨by omega, by omega⟩ h

theorem parseSingle_obj {t : Tree} (ht : t.Small) : parseSingle t.obj = .ok (enc t) := by
  induction t with
  | leaf l =>
    show (castLetter (l : ℤ)).map _ = _
    rw [castLetter_ok.2 ⟨rfl, small_leaf.1 ht⟩]
    rfl
  | node a b iha ihb =>
    show (do let x ← parseSingle a.obj; let y ← parseSingle b.obj; return joinTrees x y) = _
    rw [iha (small_node.1 ht).1, ihb (small_node.1 ht).2]
    rfl

theorem parseSingle_ok {o : Obj} : ∀ {d : List ℕ}, parseSingle o = .ok d →
    ∃ t : Tree, o = t.obj ∧ t.Small ∧ d = enc t := by
  induction o with
  | int n =>
    intro d h
    unfold parseSingle at h
    cases hc : castLetter n with
    | error e => rw [hc] at h; cases h
    | ok l =>
      rw [hc] at h
      obtain ⟨rfl, h2⟩ := castLetter_ok.1 hc
      injection h with h
      exact ⟨.leaf l, rfl, small_leaf.2 h2, h.symm⟩
  | pair l r ihl ihr =>
    intro d h
    unfold parseSingle at h
    cases hl : parseSingle l with
    | error e => rw [hl] at h; cases h
    | ok a =>
      cases hr : parseSingle r with
      | error e => rw [hl, hr] at h; cases h
      | ok b =>
        rw [hl, hr] at h
        obtain ⟨t, rfl, ht, rfl⟩ := ihl hl
        obtain ⟨u, rfl, hu, rfl⟩ := ihr hr
        injection h with h
        exact ⟨.node t u, rfl, small_node.2 ⟨ht, hu⟩, h.symm⟩
  | list => intro d h; cases h
  | other => intro d h; cases h

/-! ## Counting letters -/

theorem degree_enc (t : Tree) : degree (enc t) = t.degree := by
  have key : ∀ t : Tree, degree (enc t) = t.degree ∧
      (block t).countP (fun x => !isOffset x) = match t with | .leaf _ => 0 | .node a b => a.degree + b.degree := by
    intro t
    induction t with
    | leaf l =>
      refine ⟨?_, rfl⟩
      unfold degree enc
      rw [List.countP_singleton, isOffset_letter]
      rfl
    | node a b iha ihb =>
      have h : degree (enc (.node a b)) = a.degree + b.degree := by
        unfold degree
        rw [enc_node, List.countP_cons, List.countP_cons, List.countP_append, iha.2, ihb.2]
        cases a <;> cases b <;>
          simp [head, isOffset_letter, isOffset_offset, Tree.degree] <;> omega
      exact ⟨h, h⟩
  exact (key t).1

end RoughPy.Keys
