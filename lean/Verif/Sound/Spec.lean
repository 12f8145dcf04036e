import Verif.Sound.Model
import Verif.Streams.Spec
import Mathlib.Algebra.GroupWithZero.WithZero

/-!
# Specification vocabulary for sound files

A sound file as a list of time-stamped events: at the time of each frame after the first, the
movement of the path.
-/

namespace RoughPy.Sound

open RoughPy.Streams RoughPy.Schema

/-- The movement at a frame: the sample itself in a channel of increments, the change since the
frame before in a channel of values. -/
def movement (chans : List Channel) (before now : List ℚ) : List ℚ :=
  List.zipWith (fun c (p : ℚ × ℚ) => if isValue c then p.2 - p.1 else p.2) chans (before.zip now)

/-- All movements of a file, each at the time of its frame in seconds; there is none at the first
frame. -/
def movements (chans : List Channel) (f : SoundFile) : List (ℚ × List ℚ) :=
  (f.frames.zip f.frames.tail).zipIdx.map fun p =>
    (((p.2 + 1 : ℕ) : ℚ) / (f.rate : ℚ), movement chans p.1.1 p.1.2)

/-- A sound file as the library guarantees it: a positive rate and frames of equal size. -/
structure WellFormed (f : SoundFile) : Prop where
  rate : 0 < f.rate
  frames : ∀ r ∈ f.frames, r.length = f.channels

/-- The schema has one increment or value channel without lead-lag per channel of the file, and no
time channel. -/
structure PlainFor (s : Schema) (f : SoundFile) : Prop where
  count : s.channels.length = f.channels
  kinds : ∀ c ∈ s.channels, c.2 = .increment false ∨ c.2 = .value false
  noTime : s.needsAdding = false

end RoughPy.Sound
