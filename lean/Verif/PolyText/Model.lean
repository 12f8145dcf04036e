import Verif.GenPoly.Model

/-!
# Text of polynomials

`PolynomialType::parse_from_string` and `PolynomialType::display`
(`platform/src/generics/polynomial_type/polynomial_type.cpp:173-181`, `195-333`; `polynomial.cpp:139-152`,
`monomial.cpp:53-64`, `indeterminate.cpp:13-15`, `multiprecision_types/mpq_string_rep.h:16-28`).

Texts are lists of characters.  The regular expressions are matched by hand: in each of them a repetition
is followed by a character that it does not accept, so matching without backtracking finds the same match as
the library (`ctre`).  Reading a decimal fraction (`std::stod`) is a parameter.
-/

namespace RoughPy.PolyText

open RoughPy.GenPoly

/-! ### Matching -/

/-- `[1-9]\d*`: the digits and what follows -/
def posNumber : List Char → Option (List Char × List Char)
  | [] => none
  | c :: s =>
    if c.isDigit && c != '0' then some (c :: s.takeWhile (·.isDigit), s.dropWhile (·.isDigit)) else none

/-- the rest of a text that starts with a character -/
def strip (c : Char) : List Char → Option (List Char)
  | [] => none
  | d :: s => if d = c then some s else none

/-- what the groups of the pattern of a factor hold (`polynomial_type.cpp:262-264`) -/
structure Factor where
  letter : Char
  index : List Char
  power : Option (List Char)
  deriving DecidableEq

/-- `([a-zA-Z])([1-9]\d*)(?:\^([1-9]\d*))?` (`polynomial_type.cpp:262-264`) -/
def factor : List Char → Option (Factor × List Char)
  | [] => none
  | c :: s =>
    if c.isAlpha then
      match posNumber s with
      | none => none
      | some (i, t) =>
        match (strip '^' t).bind posNumber with
        | some (p, t) => some (⟨c, i, some p⟩, t)
        | none => some (⟨c, i, none⟩, t)
    else none

/-- The factors at the start of a text.  The first argument bounds their number. -/
def factors : ℕ → List Char → List Factor × List Char
  | 0, s => ([], s)
  | n + 1, s =>
    match factor s with
    | none => ([], s)
    | some (f, t) => (f :: (factors n t).1, (factors n t).2)

/-- `(?:\((?<mon>(?:[a-zA-Z][1-9]\d*(?:\^(?:[1-9]\d*))?)+)\))?`: the factors, if there are any in brackets
(`polynomial_type.cpp:301-303`).  The code matches the contents a second time (`:266`), which finds the same
factors. -/
def monomial (s : List Char) : Option (List Factor × List Char) :=
  (strip '(' s).bind fun s =>
    let r := factors s.length s
    if r.1 = [] then none else (strip ')' r.2).map fun t => (r.1, t)

/-- the groups for the coefficient -/
inductive Number where
  | dbl (digits : List Char)
  | rat (num : List Char) (den : Option (List Char))
  deriving DecidableEq

/-- `(?<dbl>\d+\.\d*)|(?<rat>[1-9]\d*(?:\/[1-9]\d*)?)` (`polynomial_type.cpp:301-303`) -/
def number (s : List Char) : Option (Number × List Char) :=
  let ds := s.takeWhile (·.isDigit)
  match if ds = [] then none else strip '.' (s.dropWhile (·.isDigit)) with
  | some t => some (.dbl (ds ++ '.' :: t.takeWhile (·.isDigit)), t.dropWhile (·.isDigit))
  | none =>
    match posNumber s with
    | none => none
    | some (n, t) =>
      match (strip '/' t).bind posNumber with
      | some (d, t) => some (.rat n (some d), t)
      | none => some (.rat n none, t)

/-- a match of the pattern of a term -/
structure Match where
  negative : Bool
  number : Number
  factors : List Factor
  deriving DecidableEq

/-- the pattern without the sign -/
def unsignedTerm (neg : Bool) (s : List Char) : Option (Match × List Char) :=
  match number s with
  | none => none
  | some (x, t) =>
    match monomial t with
    | some (fs, t) => some (⟨neg, x, fs⟩, t)
    | none => some (⟨neg, x, []⟩, t)

/-- the pattern of a term (`polynomial_type.cpp:301-303`) at the start of a text -/
def term (s : List Char) : Option (Match × List Char) :=
  match strip '+' s with
  | some t => unsignedTerm false t
  | none =>
    match strip '-' s with
    | some t => unsignedTerm true t
    | none => unsignedTerm false s

/-- `ctre::search_all` (`polynomial_type.cpp:306`): matches from left to right; a character at which none
starts is skipped.  The first argument bounds the number of steps. -/
def searchAll : ℕ → List Char → List Match
  | 0, _ => []
  | _ + 1, [] => []
  | n + 1, c :: s =>
    match term (c :: s) with
    | some (m, t) => m :: searchAll n t
    | none => searchAll n s

/-! ### Reading -/

/-- The coefficient as it is stored: GMP's numerator and denominator. -/
abbrev Coeff := ℤ × ℕ

/-- `std::from_chars` for digits (`polynomial_type.cpp:203-215`): numbers beyond the type are errors. -/
def fromChars (max : ℕ) (ds : List Char) : Option ℕ :=
  let n := Nat.ofDigitChars 10 ds 0
  if n ≤ max then some n else none

/-- Reading ends well, or is refused, or ends the process: `std::stod` throws `std::out_of_range`, which
`parse_dbl_coeff` does not catch and must not let through (`noexcept`, `polynomial_type.cpp:217-226`). -/
inductive Res (α : Type) where
  | ok (a : α)
  | refused
  | terminates
  deriving DecidableEq

/-- `parse_dbl_coeff` and `parse_rat_coeff` (`polynomial_type.cpp:217-256`); the fraction is not reduced.
`stod` is the value of a decimal fraction as a double, if it has one. -/
def readCoeff (stod : List Char → Option ℚ) (neg : Bool) : Number → Res Coeff
  | .dbl ds =>
    match stod ds with
    | none => .terminates
    | some q => .ok ((if neg then -q else q).num, (if neg then -q else q).den)
  | .rat n d =>
    match fromChars (2 ^ 63 - 1) n, (d.elim (some 1) (fromChars (2 ^ 63 - 1))) with
    | some n, some d => .ok (if neg then -(n : ℤ) else n, d)
    | _, _ => .refused

/-- `parse_monomial` (`polynomial_type.cpp:259-290`): a factor that is already there is dropped by
`emplace`. -/
def readFactors : List Factor → FlatMap Ind ℕ → Option (FlatMap Ind ℕ)
  | [], m => some m
  | f :: fs, m =>
    match fromChars (2 ^ 64 - 1) f.index, f.power.elim (some 1) (fromChars (2 ^ 31 - 1)) with
    | some i, some p => readFactors fs (m.emplace indLt (mkInd f.letter i) p).1
    | _, _ => none

abbrev Poly := FlatMap Mono Coeff

/-- the loop of `parse_from_string` (`polynomial_type.cpp:306-330`): a term whose monomial is already there
is dropped by `emplace` -/
def readTerms (stod : List Char → Option ℚ) : List Match → Poly → Res Poly
  | [], p => .ok p
  | m :: ms, p =>
    match readCoeff stod m.negative m.number with
    | .refused => .refused
    | .terminates => .terminates
    | .ok c =>
      match readFactors m.factors ⟨0, 1, []⟩ with
      | none => .refused
      | some mon => readTerms stod ms (p.emplace monoLt mon.data c).1

/-- `parse_from_string` into a new polynomial (`polynomial_type.cpp:293-333`): the terms -/
def parse (stod : List Char → Option ℚ) (s : List Char) : Res (List (Mono × Coeff)) :=
  match readTerms stod (searchAll s.length s) ⟨0, 0, []⟩ with
  | .ok p => .ok p.data
  | .refused => .refused
  | .terminates => .terminates

/-! ### Writing -/

/-- `operator<<(Indeterminate)` (`indeterminate.cpp:13-15`, `indeterminate.h:76-91`): the highest byte and the
lower seven -/
def showInd (x : Ind) : List Char := Char.ofNat (x / 2 ^ 56) :: Nat.toDigits 10 (x % 2 ^ 56)

/-- one factor of `operator<<(Monomial)` (`monomial.cpp:58-61`) -/
def showFactor (x : Ind × ℕ) : List Char :=
  if x.2 > 0 then showInd x.1 ++ if x.2 > 1 then '^' :: Nat.toDigits 10 x.2 else [] else []

/-- `operator<<(Monomial)` (`monomial.cpp:53-64`) -/
def showMono (m : Mono) : List Char := List.intercalate [' '] (m.map showFactor)

/-- `mpq_get_str` (`mpq_string_rep.h:16-28`) -/
def showCoeff (c : Coeff) : List Char :=
  (if c.1 < 0 then ['-'] else []) ++ Nat.toDigits 10 c.1.natAbs ++
    if c.2 = 1 then [] else '/' :: Nat.toDigits 10 c.2

/-- one term of `poly_print` (`polynomial.cpp:143-150`) -/
def showTerm (t : Mono × Coeff) : List Char :=
  ' ' :: showCoeff t.2 ++ if t.1 = [] then [] else '(' :: showMono t.1 ++ [')']

/-- `poly_print` (`polynomial.cpp:139-152`) -/
def display (p : List (Mono × Coeff)) : List Char := '{' :: (p.flatMap showTerm) ++ [' ', '}']

end RoughPy.PolyText
