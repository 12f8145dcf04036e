import Verif.PolyText.Model

/-!
# The text of a polynomial

A polynomial is a list of terms: a coefficient, a numerator and a denominator, and the powers of
indeterminates.  Its text lists the terms in curly brackets, each with its indeterminates in round brackets,
such as `{ 15/2 -2(x1) 1(x1^2y3) }`.
-/

namespace RoughPy.PolyText

open RoughPy.GenPoly

/-- `x3^2`: letter, index, power -/
structure Power where
  letter : Char
  index : ℕ
  power : ℕ

/-- The letter is one, the numbers are positive and of the sizes that the library can store: 56 and 31 bits. -/
structure Power.Valid (x : Power) : Prop where
  letter_alpha : x.letter.isAlpha = true
  index_pos : 1 ≤ x.index
  index_lt : x.index < 2 ^ 56
  power_pos : 1 ≤ x.power
  power_lt : x.power < 2 ^ 31

/-- the text of a power -/
def Power.text (x : Power) : List Char :=
  x.letter :: Nat.toDigits 10 x.index ++ if x.power = 1 then [] else '^' :: Nat.toDigits 10 x.power

/-- as the library stores it -/
def Power.stored (x : Power) : Ind × ℕ := (mkInd x.letter x.index, x.power)

structure Term where
  num : ℤ
  den : ℕ
  powers : List Power

/-- The coefficient is not zero and fits in 64 bits with sign; the indeterminates are valid, each
once. -/
structure Term.Valid (t : Term) : Prop where
  num_ne : t.num ≠ 0
  num_lt : t.num.natAbs < 2 ^ 63
  den_pos : 1 ≤ t.den
  den_lt : t.den < 2 ^ 63
  powers : ∀ x ∈ t.powers, x.Valid
  distinct : t.powers.Pairwise fun x y => x.stored.1 ≠ y.stored.1

/-- The indeterminates are in the order in which the library stores them. -/
def Term.Ordered (t : Term) : Prop := t.powers.Pairwise fun x y => x.stored.1 < y.stored.1

/-- Two terms have the same indeterminates with the same powers. -/
def Term.SameMonomial (s t : Term) : Prop := (s.powers.map Power.stored).Perm (t.powers.map Power.stored)

/-- A term is stored: coefficient and indeterminates are the same, the latter in any order. -/
def Term.StoredAs (t : Term) (e : Mono × (ℤ × ℕ)) : Prop :=
  e.1.Perm (t.powers.map Power.stored) ∧ e.2 = (t.num, t.den)

def Term.stored (t : Term) : Mono × (ℤ × ℕ) := (t.powers.map Power.stored, (t.num, t.den))

/-- the text of a term; a positive sign may be written -/
def Term.text (plus : Bool) (t : Term) : List Char :=
  (if t.num < 0 then ['-'] else if plus then ['+'] else []) ++ Nat.toDigits 10 t.num.natAbs ++
    (if t.den = 1 then [] else '/' :: Nat.toDigits 10 t.den) ++
    if t.powers = [] then [] else '(' :: t.powers.flatMap Power.text ++ [')']

/-- the text of a polynomial -/
def text (ts : List (Bool × Term)) : List Char :=
  '{' :: (ts.flatMap fun t => ' ' :: t.2.text t.1) ++ [' ', '}']

end RoughPy.PolyText
