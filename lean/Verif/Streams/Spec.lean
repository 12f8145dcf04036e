import Verif.Intervals.Spec
import Verif.Streams.Model
import Mathlib.Algebra.BigOperators.Group.List.Basic

/-!
# Specification vocabulary for streams

Time-stamped events, their product over a set of times, and what it means for a Lie library to
be consistent with a signature map.
-/

namespace RoughPy.Streams

open RoughPy.Intervals

/-- `sig` turns Lie elements into signatures (elements of a monoid `G`), in such a way that the
zero element has signature `1` and the `cbh` of a list has the ordered product of the
signatures. -/
structure Interprets {L G : Type} [Monoid G] (ops : LieOps L) (sig : L → G) : Prop where
  zero : sig ops.zero = 1
  isZero : ∀ x, ops.isZero x = true → sig x = 1
  cbh : ∀ ls, sig (ops.cbh ls) = (ls.map sig).prod

/-- Increasing time stamps. -/
def Chronological {L : Type} (m : List (ℚ × L)) : Prop := m.Pairwise fun r s => r.1 < s.1

/-- The events of `m` whose time lies in the set `T`, in the order of `m`. -/
noncomputable def eventsIn {L : Type} (m : List (ℚ × L)) (T : Set ℚ) : List (ℚ × L) :=
  open Classical in m.filter fun r => decide (r.1 ∈ T)

/-- The signature of a list of events: ordered product. -/
def eventsSig {L G : Type} [Monoid G] (sig : L → G) (m : List (ℚ × L)) : G :=
  (m.map fun r => sig r.2).prod

/-- The largest multiple of `2^-res` not exceeding `x`. -/
def gridFloor (res : ℤ) (x : ℚ) : ℚ := (⌊x * 2 ^ res⌋ : ℚ) / 2 ^ res

/-- `x` moved to the nearest point of `[lo, hi]`. -/
def clamp (lo hi x : ℚ) : ℚ := max lo (min x hi)

/-- `f fuel` is `some a` for all large enough fuel: the modelled code returns `a`. -/
def Returns {α : Type} (f : ℕ → Option α) (a : α) : Prop := ∃ n₀, ∀ n ≥ n₀, f n = some a

/-- Emptiness of an interval is inherited by the dyadic intervals inside it. -/
def EmptyInherited {L : Type} (S : Impl L) : Prop :=
  ∀ d e : DyadicInterval, d.type = .clopen → e.type = .clopen → e.points ⊆ d.points →
    S.empty (asInterval d) = true → S.empty (asInterval e) = true

/-- Length of the overlap of two intervals `[a, b)`, `[c, d)` (negative if they are apart). -/
def overlap (a b c d : ℚ) : ℚ := min b d - max a c

/-- Consecutive pieces: each is a proper interval and ends before the next begins. -/
def Consecutive {L : Type} (pieces : List (RealInterval × L)) : Prop :=
  (∀ p ∈ pieces, p.1.inf < p.1.sup) ∧ pieces.Pairwise fun p q => p.1.sup ≤ q.1.inf

/-- The pieces meeting `[a, b)`, each scaled by the fraction of the piece inside `[a, b)`. -/
def scaledPieces {L : Type} (smul : L → ℚ → L) (a b : ℚ) (pieces : List (RealInterval × L)) :
    List L :=
  (pieces.filter fun p => decide (0 < overlap a b p.1.inf p.1.sup)).map fun p =>
    smul p.2 (overlap a b p.1.inf p.1.sup / (p.1.sup - p.1.inf))

end RoughPy.Streams
